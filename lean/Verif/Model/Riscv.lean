import Verif.Model.Arith

/-!
# RISC-V units

Models `memorySize`, `stackSize`, `isAccessTrigger`, `generateCHeader` and `generateSiliceCode` of
/repo/src/RISCVSynthesizer.cpp, and the always block of /repo/frameworks/libraries/riscv/ice-v/riscv-soc.si (the same in
ice-v-dual) that uses the generated text. The processor itself is not modelled: it is a source of bus accesses.
-/

set_option autoImplicit false

namespace Silice

inductive RKind where
  | input
  | output
  | inout
deriving DecidableEq, Repr

/-- A port of the unit, /repo/src/RISCVSynthesizer.cpp:53-88. -/
structure RPort where
  name : String
  kind : RKind
  width : Nat
deriving DecidableEq, Repr

inductive RErr where
  | memory
  | stack
  | bus
  | inout
  | trigger
deriving DecidableEq, Repr

/-- Check shared by `memorySize` and `stackSize`, /repo/src/RISCVSynthesizer.cpp:111 and 136. -/
def sizeOk (sz : Int) : Bool := !(sz ≤ 0 || sz.tmod 4 ≠ 0)

/-- Addresses written in the header for the C code, the loop of /repo/src/RISCVSynthesizer.cpp:283-315. -/
def ioAddresses (base : Nat) : Nat → List RPort → Except RErr (List Nat)
  | _, [] => .ok []
  | next, _ :: ps =>
    if next <<< 1 ≥ base then .error .bus
    else
      match ioAddresses base (next <<< 1) ps with
      | .ok as => .ok ((base ||| next) :: as)
      | .error e => .error e

/-- Bit indicating an input or output in the addresses used by software, /repo/src/RISCVSynthesizer.cpp:279. -/
def periphBit (mem : Int) : Int := justHigherPow2 mem

/-- `generateCHeader`, /repo/src/RISCVSynthesizer.cpp:272-319, only the addresses. `1 << periph_bit` is a shift of an `int`: `none` when
it overflows. -/
def cHeader (mem : Int) (ports : List RPort) : Option (Except RErr (List Nat)) :=
  if periphBit mem < 0 ∨ 31 ≤ periphBit mem then none
  else some (ioAddresses (1 <<< (periphBit mem).toNat) 4 ports)

/-- What the generated text contains: widths and positions, then for each port by its index the reads (365), the writes (374) and the
access triggers (384-386: the trigger, the index accessed, whether it is for writes). -/
structure SocCode where
  addrW : Int
  memsz : Int
  external : Int
  reads : List (Nat × RPort)
  writes : List (Nat × RPort)
  triggers : List (String × Nat × Bool)
deriving DecidableEq, Repr

/-- `isAccessTrigger`, /repo/src/RISCVSynthesizer.cpp:250-268: the name accessed by an output named after it. -/
def accessedBy (ports : List RPort) (oname : String) : Option String :=
  if oname.toList.take 3 = ['o', 'n', '_'] then
    if String.ofList (oname.toList.drop 3) ∈ ports.map (·.name) then some (String.ofList (oname.toList.drop 3)) else none
  else none

/-- `io2idx`: `insert` keeps the first index, /repo/src/RISCVSynthesizer.cpp:331-350. -/
def ioIndex (ports : List RPort) (n : String) : Option Nat := ports.findIdx? (·.name == n)

/-- Kind of the port accessed, tested in the order input, output, /repo/src/RISCVSynthesizer.cpp:383-390. -/
def accessedKind (ports : List RPort) (n : String) : RKind :=
  if ports.any fun p => p.name == n && decide (p.kind = .input) then .input
  else if ports.any fun p => p.name == n && decide (p.kind = .output) then .output
  else .inout

/-- The loop of /repo/src/RISCVSynthesizer.cpp:353-405, from index `idx`. The assertion that the accessed name has an index is
`none`. -/
def socLoop (all : List RPort) : Nat → List RPort → SocCode → Option (Except RErr SocCode)
  | _, [], c => some (.ok c)
  | idx, p :: ps, c =>
    match p.kind with
    | .input => socLoop all (idx + 1) ps { c with reads := c.reads ++ [(idx, p)] }
    | .output =>
      match accessedBy all p.name with
      | none => socLoop all (idx + 1) ps { c with writes := c.writes ++ [(idx, p)] }
      | some acc =>
        match ioIndex all acc with
        | none => none
        | some k =>
          if p.width ≠ 1 then some (.error .trigger)
          else
            match accessedKind all acc with
            | .input => socLoop all (idx + 1) ps { c with triggers := c.triggers ++ [(p.name, k, false)] }
            | .output => socLoop all (idx + 1) ps { c with triggers := c.triggers ++ [(p.name, k, true)] }
            | .inout => some (.error .inout)
    | .inout => some (.error .inout)

/-- `generateSiliceCode`, /repo/src/RISCVSynthesizer.cpp:323-422. -/
def siliceCode (mem : Int) (ports : List RPort) : Option (Except RErr SocCode) :=
  socLoop ports 0 ports
    { addrW := 1 + justHigherPow2 (mem.tdiv 4), memsz := mem.tdiv 4, external := justHigherPow2 mem - 2,
      reads := [], writes := [], triggers := [] }

/-- An accepted unit. -/
structure RUnit where
  mem : Nat
  stack : Nat
  ports : List RPort
  addrs : List Nat
  soc : SocCode
deriving DecidableEq, Repr

/-- `stackSize`, /repo/src/RISCVSynthesizer.cpp:127-147: 128 bytes when not given. -/
def stackBytes : Option Int → Int
  | some s => s
  | none => 128

/-- The check of `stackSize`, done on a given size. -/
def stackOk : Option Int → Bool
  | some s => sizeOk s
  | none => true

/-- The constructor, /repo/src/RISCVSynthesizer.cpp:427-505: header, then Silice code, then the check on the room left by the stack. -/
def synthRiscv (mem : Int) (stack : Option Int) (ports : List RPort) : Option (Except RErr RUnit) :=
  if !sizeOk mem then some (.error .memory)
  else if !stackOk stack then some (.error .stack)
  else
    match cHeader mem ports with
    | none => none
    | some (.error e) => some (.error e)
    | some (.ok as) =>
      match siliceCode mem ports with
      | none => none
      | some (.error e) => some (.error e)
      | some (.ok c) =>
        if mem - stackBytes stack ≤ 0 then some (.error .stack)
        else some (.ok ⟨mem.toNat, (stackBytes stack).toNat, ports, as, c⟩)

/-! ## The circuit -/

/-- A bus access of the processor in a cycle: the address in words, kept to `addrW` bits; a mask of bytes to write (0: a read); data. -/
structure BusAcc where
  addr : Nat
  wmask : Nat
  wdata : Nat

/-- Access to a byte address: `mem.addr = exec.n >> 2`, /repo/projects/ice-v/CPUs/ice-v.si:207, in a variable of `addrW` bits. -/
def busAt (c : SocCode) (byteAddr wmask wdata : Nat) : BusAcc := ⟨byteAddr / 4 % 2 ^ c.addrW.toNat, wmask % 16, wdata % 2 ^ 32⟩

/-- State of the circuit, riscv-soc.si:39-40, and the values of the outputs. -/
structure SocSt where
  prevAddr : Nat
  prevRw : Bool
  outs : String → Nat

/-- What the circuit gives in a cycle: to the RAM, and to the processor. -/
structure SocOut where
  ramMask : Nat
  ramAddr : Nat
  rdata : Nat

/-- Bit `k` of an address, `addr[k,1]`. -/
def addrBit (addr : Nat) (k : Int) : Bool := 0 ≤ k && addr.testBit k.toNat

/-- `(32b0 | (ior_k ? v_k : 32b0) | ...)`, /repo/src/RISCVSynthesizer.cpp:327 and 365. -/
def ioReads (c : SocCode) (prev : Nat) (ins : String → Nat) : Nat :=
  c.reads.foldl (fun v r => v ||| if addrBit prev r.1 then ins r.2.name else 0) 0

/-- Change of one output. -/
def setOut (outs : String → Nat) (n : String) (v : Nat) : String → Nat := fun m => if m = n then v else outs m

/-- `on_x = io_read & ior_k; ` and `on_x = io_write & iow_k; `, /repo/src/RISCVSynthesizer.cpp:384 and 386. -/
def setTriggers (addr prev : Nat) (ioWrite ioRead : Bool) : List (String × Nat × Bool) → (String → Nat) → String → Nat
  | [], outs => outs
  | (n, k, forWrites) :: ts, outs =>
    setTriggers addr prev ioWrite ioRead ts
      (setOut outs n (if (if forWrites then ioWrite && addrBit addr k else ioRead && addrBit prev k) then 1 else 0))

/-- `v = iow_k ? memio.wdata : v; `, /repo/src/RISCVSynthesizer.cpp:374. An output keeps the bits of its width. -/
def setOutputs (addr wdata : Nat) : List (Nat × RPort) → (String → Nat) → String → Nat
  | [], outs => outs
  | (k, p) :: ws, outs =>
    setOutputs addr wdata ws (setOut outs p.name (if addrBit addr k then wdata % 2 ^ p.width else outs p.name))

/-- One cycle of the always block, riscv-soc.si:46-80: the access, the values of the inputs, the data read from the RAM. -/
def socStep (u : RUnit) (ins : String → Nat) (ramData : Nat) (b : BusAcc) (s : SocSt) : SocOut × SocSt :=
  let wen := b.wmask != 0
  let ioWrite := addrBit b.addr u.soc.external && wen
  let ioRead := addrBit s.prevAddr u.soc.external && !s.prevRw
  let outs1 := setTriggers b.addr s.prevAddr ioWrite ioRead u.soc.triggers s.outs
  let outs2 := if ioWrite then setOutputs b.addr b.wdata u.soc.writes outs1 else outs1
  (⟨if addrBit b.addr u.soc.external then 0 else b.wmask, b.addr, if ioRead then ioReads u.soc s.prevAddr ins % 2 ^ 32 else ramData⟩,
   ⟨b.addr, wen, outs2⟩)

end Silice
