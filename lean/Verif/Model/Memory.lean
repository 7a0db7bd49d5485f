import Verif.Model.Arith
import Verif.Model.Table
/-
Memories (`bram`, `brom`, `dualport_bram`, `simple_dualport_bram`): their declaration
(`gatherDeclarationMemory`, /repo/src/Algorithm.cpp:881-1033), what is put into the templates
(`prepareModuleMemoryTemplateReplacements`, 9434-9498), the templates of /repo/frameworks/templates and the way the
members are connected (10316-10350).

A template is a Verilog module. Its `always` blocks are transcribed into the lists of non-blocking assignments they
execute on a rising edge, in order. A bit is `some true`, `some false` or `none` (unknown, Verilog's `x`). Simplified:
the write enables and the addresses are known values (their members are set to 0 at startup), and the blocks of a
template do not interleave.
-/
set_option autoImplicit false
namespace Silice

/-- The four kinds of memories, /repo/antlr/silice.g4:216. -/
inductive MemKind where
  | bram | brom | dual | simpleDual
deriving Repr, DecidableEq

/-- `memid`, /repo/src/Algorithm.cpp:898-909. -/
def MemKind.id : MemKind → String
  | .bram => "bram"
  | .brom => "brom"
  | .dual => "dualport_bram"
  | .simpleDual => "simple_dualport_bram"

/-- `t_mem_member`, /repo/src/Algorithm.cpp:74-78. -/
structure MemMember where
  isInput : Bool
  isAddr : Bool
  name : String
deriving Repr, DecidableEq

/-- `c_BRAMmembers`, ..., /repo/src/Algorithm.cpp:80-109. -/
def MemKind.members : MemKind → List MemMember
  | .bram => [⟨true, false, "wenable"⟩, ⟨false, false, "rdata"⟩, ⟨true, false, "wdata"⟩, ⟨true, true, "addr"⟩]
  | .brom => [⟨false, false, "rdata"⟩, ⟨true, true, "addr"⟩]
  | .dual => [⟨true, false, "wenable0"⟩, ⟨false, false, "rdata0"⟩, ⟨true, false, "wdata0"⟩, ⟨true, true, "addr0"⟩,
      ⟨true, false, "wenable1"⟩, ⟨false, false, "rdata1"⟩, ⟨true, false, "wdata1"⟩, ⟨true, true, "addr1"⟩]
  | .simpleDual => [⟨false, false, "rdata0"⟩, ⟨true, true, "addr0"⟩, ⟨true, false, "wenable1"⟩,
      ⟨true, false, "wdata1"⟩, ⟨true, true, "addr1"⟩]

/-- `CONFIG.keyValues()`, /repo/src/Config.h. -/
abbrev MemConfig := String → Option String

/-- The entries of `Config::Config` on memories, /repo/src/Config.cpp:49-70. -/
def MemConfig.defaults : MemConfig := fun k => [
  ("bram_supported", "yes"), ("bram_template", "bram_generic.v.in"), ("bram_wenable_type", "uint"),
  ("bram_wenable_width", "1"),
  ("brom_supported", "yes"), ("brom_template", "brom_generic.v.in"),
  ("dualport_bram_supported", "yes"), ("dualport_bram_template", "dualport_bram_generic.v.in"),
  ("dualport_bram_wenable0_type", "uint"), ("dualport_bram_wenable0_width", "1"),
  ("dualport_bram_wenable1_type", "uint"), ("dualport_bram_wenable1_width", "1"),
  ("simple_dualport_bram_supported", "yes"),
  ("simple_dualport_bram_template", "simple_dualport_bram_generic.v.in"),
  ("simple_dualport_bram_wenable1_type", "uint"), ("simple_dualport_bram_wenable1_width", "1")].lookup k

/-- Width of a member, /repo/src/Algorithm.cpp:981-998 (the variable) and 9451-9469 (the template). `custom` is the
name of the template given with the declaration, "" if there is none. `none` is the case of a value of the
configuration that is neither "1" nor "data": the variable keeps width 0 and the template receives the empty text. -/
def memberWidth (cfg : MemConfig) (custom : String) (kind : MemKind) (dataWidth size : Nat) (m : MemMember) :
    Option Int :=
  if m.isAddr then some (justHigherPow2 size)
  else
    let own := if custom = "" then none else cfg (custom ++ "_" ++ m.name ++ "_width")
    let found := match own with
      | some v => some v
      | none => cfg (kind.id ++ "_" ++ m.name ++ "_width")
    match found with
    | none => some dataWidth
    | some v => if v = "1" then some 1 else if v = "data" then some dataWidth else none

inductive MemErr where
  | unsupported | table (e : TableErr) | bromUninitialized
deriving Repr, DecidableEq

/-- `t_mem_nfo` (the part used). -/
structure MemNfo where
  kind : MemKind
  dataWidth : Nat
  table : TableNfo Nat
  custom : String
  delayed : Bool

/-- `gatherDeclarationMemory` without the naming checks (C13) and the clocks, /repo/src/Algorithm.cpp:912-939,
960-976. The values of the initialiser are given as numbers. -/
def declareMemory (cfg : MemConfig) (kind : MemKind) (dataWidth : Nat) (declared : Option Nat) (init : TableInit Nat)
    (custom : String) (delayed : Bool) : Except MemErr MemNfo :=
  if cfg (kind.id ++ "_supported") ≠ some "yes" then .error .unsupported
  else match readInitList 0 declared init with
    | .error e => .error (.table e)
    | .ok t =>
      if kind = .brom ∧ t.doNotInit then .error .bromUninitialized
      else .ok ⟨kind, dataWidth, t, custom, delayed⟩

/-- The template file: the one named by the declaration, otherwise that of the configuration,
/repo/src/Algorithm.cpp:9508-9522. -/
def MemNfo.templateFile (cfg : MemConfig) (m : MemNfo) : Option String :=
  if m.custom = "" then cfg (m.kind.id ++ "_template") else some (m.custom ++ ".v.in")

/-- A word: its bits. Those from the width on mean nothing. -/
abbrev MWord := Nat → Option Bool

/-- Bits of a number assigned to a register. -/
def wordOf (v : Nat) : MWord := fun b => some (v.testBit b)

/-- The word read outside of a memory (Verilog: `x`). -/
def noWord : MWord := fun _ => none

/-- The parameters of a template: `%DATA_WIDTH%`, `%DATA_SIZE%` and `%WENABLE_WIDTH%` of either port. -/
structure MemPar where
  width : Nat
  size : Nat
  wenW : Bool → Nat

/-- `%DATA_WIDTH%`, `%DATA_SIZE%` (/repo/src/Algorithm.cpp:9484-9485) and the widths of the write enables, those of the
members named `wenable`, `wenable0` and `wenable1`; 0 if there is no such member. -/
def MemNfo.par (cfg : MemConfig) (m : MemNfo) : Option MemPar := do
  let wen := fun names : List String => match m.kind.members.find? (fun x => names.contains x.name) with
    | none => some 0
    | some x => (memberWidth cfg m.custom m.kind m.dataWidth m.table.size x).map Int.toNat
  let w0 ← wen ["wenable", "wenable0"]
  let w1 ← wen ["wenable1"]
  some ⟨m.dataWidth, m.table.size, fun p => if p then w1 else w0⟩

/-- The inputs of one port. -/
structure MPortIn where
  wen : Nat
  wdata : MWord
  addr : Nat

/-- The contents and the read registers of either port. -/
structure MemSt where
  buf : Nat → MWord
  rd : Bool → MWord

/-- A non-blocking assignment: to the read register of a port, or of bits `lo ... lo+n-1` of an entry. -/
inductive MNba where
  | rdata (port : Bool) (v : MWord)
  | entry (a lo n : Nat) (v : MWord)

/-- A shipped template, /repo/frameworks/templates. `bramGeneric sim`: with or without `SIMULATION`. -/
inductive MemTemplate where
  | bramGeneric (sim : Bool) | bramWmaskByte | bromGeneric
  | dualGeneric | dualAltera | dualWmaskByte
  | simpleGeneric | simpleGenericRw | simpleWmaskByte | simpleWmaskHalf
deriving Repr, DecidableEq

/-- `buffer[a]` in an expression. -/
def MemPar.read (par : MemPar) (buf : Nat → MWord) (a : Nat) : MWord := if a < par.size then buf a else noWord

/-- `if (in_wenable)` for a port declared `[W-1:0]`. -/
def enabled (w wen : Nat) : Bool := wen % 2 ^ w ≠ 0

/-- `in_wenable[i]` for a port declared `[n-1:0]`. With `n = 0` the port is `[-1:0]`, two bits of which the rightmost
has index 0. A bit outside is unknown, and `if` takes it as false. -/
def enableBit (n wen i : Nat) : Bool := (if n = 0 then i = 0 else i < n) && wen.testBit i

/-- `for (i = 0; i < (W)/g; i = i + 1) if (in_wenable[i]) buffer[a][i*g+:g] <= in_wdata[i*g+:g];` with the port
declared `[n-1:0]`. -/
def laneWrites (par : MemPar) (g n : Nat) (x : MPortIn) : List MNba :=
  (List.range (par.width / g)).filterMap fun i =>
    if enableBit n x.wen i then some (.entry x.addr (i * g) g x.wdata) else none

/-- The blocks of a template clocked by the clock of a port (`false` for the only port or port 0, `true` for
port 1), for the values `x` of the inputs of that port:
bram_generic.v.in:13-20 and 22-27, bram_wmask_byte.v.in:10-20, brom_generic.v.in:8-10,
dualport_bram_generic.v.in:15-28, dualport_bram_altera.v.in:15-28, dualport_bram_wmask_byte.v.in:15-35,
simple_dualport_bram_generic.v.in and simple_dualport_bram_generic_rw.v.in:13-20,
simple_dualport_bram_wmask_byte.v.in and simple_dualport_bram_wmask_half_bytes.v.in:13-23. -/
def MemTemplate.block (par : MemPar) (buf : Nat → MWord) (x : MPortIn) : MemTemplate → Bool → List MNba
  | .bramGeneric true, false =>
    if enabled (par.wenW false) x.wen then [.entry x.addr 0 par.width x.wdata, .rdata false x.wdata]
    else [.rdata false (par.read buf x.addr)]
  | .bramGeneric false, false =>
    (if enabled (par.wenW false) x.wen then [.entry x.addr 0 par.width x.wdata] else []) ++
      [.rdata false (par.read buf x.addr)]
  | .bramWmaskByte, false =>
    .rdata false (par.read buf x.addr) :: laneWrites par 8 (par.wenW false / 8) x
  | .bromGeneric, false => [.rdata false (par.read buf x.addr)]
  | .bramGeneric _, true => []
  | .bramWmaskByte, true => []
  | .bromGeneric, true => []
  | .dualGeneric, p =>
    if enabled (par.wenW p) x.wen then [.entry x.addr 0 par.width x.wdata]
    else [.rdata p (par.read buf x.addr)]
  | .dualAltera, p =>
    .rdata p (par.read buf x.addr) ::
      (if enabled (par.wenW p) x.wen then [.rdata p x.wdata, .entry x.addr 0 par.width x.wdata] else [])
  | .dualWmaskByte, p =>
    .rdata p (par.read buf x.addr) :: laneWrites par 8 (par.wenW p) x
  | .simpleGeneric, false => [.rdata false (par.read buf x.addr)]
  | .simpleGeneric, true =>
    if enabled (par.wenW true) x.wen then [.entry x.addr 0 par.width x.wdata] else []
  | .simpleGenericRw, false => [.rdata false (par.read buf x.addr)]
  | .simpleGenericRw, true =>
    if enabled (par.wenW true) x.wen then [.entry x.addr 0 par.width x.wdata] else []
  | .simpleWmaskByte, false => [.rdata false (par.read buf x.addr)]
  | .simpleWmaskByte, true => laneWrites par 8 (par.wenW true / 8) x
  | .simpleWmaskHalf, false => [.rdata false (par.read buf x.addr)]
  | .simpleWmaskHalf, true => laneWrites par 4 (par.wenW true / 4) x

/-- A non-blocking assignment takes effect. Outside of the memory a write does nothing. -/
def MNba.apply (par : MemPar) (s : MemSt) : MNba → MemSt
  | .rdata p v => { s with rd := fun q => if q = p then v else s.rd q }
  | .entry a lo n v =>
    if a < par.size then
      { s with buf := fun a' b => if a' = a ∧ lo ≤ b ∧ b < lo + n then v b else s.buf a' b }
    else s

/-- An instant: the clocks that rise, the inputs of both ports, and which of two simultaneous blocks has its
assignments done first (Verilog does not say). -/
structure MTick where
  rises : Bool → Bool
  x : Bool → MPortIn
  oneFirst : Bool

/-- One instant: the blocks whose clock rises see the contents before, then all the assignments take effect. -/
def memTick (T : MemTemplate) (par : MemPar) (s : MemSt) (t : MTick) : MemSt :=
  let of := fun p => if t.rises p then T.block par s.buf (t.x p) p else []
  (of t.oneFirst ++ of (!t.oneFirst)).foldl (MNba.apply par) s

def memRun (T : MemTemplate) (par : MemPar) (s : MemSt) (ts : List MTick) : MemSt := ts.foldl (memTick T par) s

/-- `%INITIAL%`: `buffer[v] = init_values[v]` for every value, nothing if the memory is uninitialized,
/repo/src/Algorithm.cpp:9486-9496. The read registers have no initial value. -/
def MemNfo.initial (m : MemNfo) : MemSt where
  buf a := match startupEntry m.table a with
    | some v => wordOf v
    | none => noWord
  rd _ := noWord

/-- The values an algorithm gives to the members of a port in a cycle (the D values at the end of the cycle). -/
abbrev MDrive := Nat → Bool → MPortIn

/-- Number of bits of a variable declared `[w-1:0]` (`varBitRange`, /repo/src/Blueprint.cpp:117-142): with `w = 0`
that is `[-1:0]`, two bits. -/
def declBits (w : Nat) : Nat := if w = 0 then 2 else w

/-- Value of an input member in a cycle, at the pin of the memory: D, or the register Q with `delayed`
(/repo/src/Algorithm.cpp:10336-10341). Before the first cycle the registers hold 0 (`init_at_startup`,
/repo/src/Algorithm.cpp:1013-1015). Members have finite widths: an address is reduced to the width of its member. -/
def memPins (delayed : Bool) (aw : Nat) (d : MDrive) (n : Nat) (p : Bool) : MPortIn :=
  let narrow := fun x : MPortIn => { x with addr := x.addr % 2 ^ declBits aw }
  if delayed then
    match n with
    | 0 => ⟨0, wordOf 0, 0⟩
    | k + 1 => narrow (d k p)
  else narrow (d n p)

/-- The memory of an algorithm, both ports on the clock of the algorithm: its state at the start of cycle `n`. -/
def memAt (T : MemTemplate) (par : MemPar) (delayed : Bool) (aw : Nat) (d : MDrive) (oneFirst : Nat → Bool)
    (s : MemSt) : Nat → MemSt
  | 0 => s
  | n + 1 => memTick T par (memAt T par delayed aw d oneFirst s n)
      ⟨fun _ => true, fun p => memPins delayed aw d n p, oneFirst n⟩

end Silice
