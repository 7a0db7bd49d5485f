import Verif.Lemmas.Import

/-!
C73: imported modules and declarations at the top.
-/

set_option autoImplicit false

namespace Silice

/-- **C73**, ports, partial. A Verilog module whose ranges are written downwards (`[7:0]`) and whose parameters are all declared is imported with
its name, its parameters, and in each direction its ports: in order, with their names and their numbers of bits.

Missing: ranges written upwards (`C73_counterexample_upwards`), and empty declarations of parameters, which follow a null pointer. -/
theorem C73_ports_partial (file : String) (h : VModSrc) (hp : none ∉ h.params) (hr : ∀ p ∈ h.ports, VDown p.range) :
    ∃ m, vGather file h = some m ∧ m.name = h.name ∧ m.file = file ∧ h.params = m.params.map some ∧
      ∀ d, List.Forall₂ (fun p v => v.name = p.name ∧ ∃ n : Nat, VBits p.range n ∧ v.width = (n : Int)) (h.along d) (m.ports d) := by
  have hw : ∀ p ∈ h.ports, ∃ n : Nat, VBits p.range n ∧ ∀ w, vWidth p.range = some w ↔ w = n := by
    intro p hpm
    have := hr p hpm
    cases hrange : p.range with
    | none => exact ⟨1, rfl, fun w => by simp [vWidth, eq_comm]⟩
    | some r =>
      obtain ⟨f, s⟩ := r
      rw [hrange] at this
      obtain ⟨a, b, ha, hb, hle, hlt⟩ := this
      refine ⟨a - b + 1, ⟨a, b, ha, hb, by omega⟩, fun w => ?_⟩
      rw [vWidth_value ha hb]
      omega
  have hps : ∃ l, vParams h.params = some l := by
    have : ∀ l : List (Option (String × String)), none ∉ l → ∃ r, vParams l = some r := by
      intro l
      induction l with
      | nil => exact fun _ => ⟨[], rfl⟩
      | cons a l ih =>
        intro hn
        cases a with
        | none => simp at hn
        | some a =>
          obtain ⟨r, hr⟩ := ih (fun h => hn (List.mem_cons_of_mem _ h))
          exact ⟨a :: r, by simp [vParams, hr]⟩
    exact this _ hp
  obtain ⟨l, hl⟩ := hps
  have : ∃ m, vGather file h = some m := by
    unfold vGather
    rw [hl]
    exact vAddPorts_defined _ _ fun p hpm => by
      obtain ⟨n, _, hn⟩ := hw p hpm
      exact ⟨n, (hn _).2 rfl⟩
  obtain ⟨m, hm⟩ := this
  obtain ⟨h1, _, h3, h4, h5⟩ := vGather_ok hm
  refine ⟨m, hm, h3, h4, h5, fun d => ?_⟩
  have hmem : ∀ p ∈ h.along d, p ∈ h.ports := fun p hp => (List.mem_filter.1 hp).1
  have hall := h1 d
  revert hmem hall
  generalize h.along d = A
  generalize m.ports d = B
  intro hmem hall
  induction hall with
  | nil => exact .nil
  | cons e _ ih =>
    refine .cons ⟨e.1, ?_⟩ (ih fun q hq => hmem q (List.mem_cons_of_mem _ hq))
    obtain ⟨n, hb, hn⟩ := hw _ (hmem _ (List.mem_cons_self ..))
    exact ⟨n, hb, (hn _).1 e.2⟩

/-- **C73**, counterexample. A range written upwards, as `[0:7]`, never gives the number of bits: the width is zero or negative. -/
theorem C73_counterexample_upwards (f s : List Char) (a b : Nat) (ha : digitsValue 10 f = some a) (hb : digitsValue 10 s = some b) (hlt : a < b)
    (hmax : b ≤ 2147483647) : ∃ w, vWidth (some (f, s)) = some w ∧ w ≤ 0 ∧ ∀ n : Nat, VBits (some (f, s)) n → w ≠ n := by
  refine ⟨(a : Int) - b + 1, (vWidth_value ha hb _).2 ⟨by omega, hmax, rfl, by omega⟩, by omega, ?_⟩
  rintro n ⟨a', b', _, _, rfl⟩
  omega

/-- `input [0:7] a` is given −6 bits. -/
example : vWidth (some ("0".toList, "7".toList)) = some (-6) ∧ digitsValue 10 "0".toList = some 0 ∧ digitsValue 10 "7".toList = some 7 := by
  decide +kernel

/-- **C73**, ports by name. In a module whose ports of a direction have different names, looking up a name finds the port of that name,
and names that are not ports are not found. -/
theorem C73_by_name (file : String) (h : VModSrc) (m : VMod) (hm : vGather file h = some m) (d : VDir)
    (hn : ((h.along d).map (·.name)).Nodup) :
    (∀ v ∈ m.ports d, m.port d v.name = some v) ∧ ∀ x, (∀ p ∈ h.along d, p.name ≠ x) → m.port d x = none := by
  obtain ⟨h1, hi, _⟩ := vGather_ok hm
  have hport : ∀ x, m.port d x = ((m.ports d).findIdx? (fun p => p.name == x)).bind ((m.ports d)[·]?) := by
    intro x
    cases d
    · exact congrArg (·.bind (m.ins[·]?)) (hi.inp x)
    · exact congrArg (·.bind (m.outs[·]?)) (hi.outp x)
    · exact congrArg (·.bind (m.ios[·]?)) (hi.io x)
  have hnames : (m.ports d).map (·.name) = (h.along d).map (·.name) := by
    have hall := h1 d
    revert hall
    generalize h.along d = A
    generalize m.ports d = B
    intro hall
    induction hall with
    | nil => rfl
    | cons e _ ih => simp [e.1, ih]
  rw [← hnames] at hn
  constructor
  · intro v hv
    rw [hport]
    obtain ⟨i, hi, rfl⟩ := List.getElem_of_mem hv
    have : (m.ports d).findIdx? (fun p => p.name == (m.ports d)[i].name) = some i := by
      rw [List.findIdx?_eq_some_iff_getElem]
      refine ⟨hi, by simp, fun j hj => ?_⟩
      have hne : (m.ports d)[j].name ≠ (m.ports d)[i].name := by
        intro e
        exact List.pairwise_iff_getElem.1 hn j i (by simp; omega) (by simpa using hi) hj (by simpa using e)
      simpa using hne
    rw [this]
    simp
  · intro x hx
    rw [hport]
    have : (m.ports d).findIdx? (fun p => p.name == x) = none := by
      rw [List.findIdx?_eq_none_iff]
      intro v hv
      have : v.name ∈ (h.along d).map (·.name) := hnames ▸ List.mem_map_of_mem hv
      obtain ⟨p, hp, e⟩ := List.mem_map.1 this
      simpa [← e] using hx p hp
    rw [this]
    rfl

/-- **C73**, parameters. An instance of a module is given the parameters that the module declares, in order, each with the value given last
when instancing, or else with its default. -/
theorem C73_parameters (m : VMod) (given : List (String × String)) :
    List.Forall₂ (fun d r => r.1 = d.1 ∧ (LastGiven given d.1 r.2 ∨ (∀ g ∈ given, g.1 ≠ d.1) ∧ r.2 = d.2)) m.params (vInstParams m given) := by
  unfold vInstParams
  rw [List.forall₂_map_right_iff, List.forall₂_same]
  intro d _
  cases hg : vGiven given d.1 with
  | none => exact ⟨rfl, .inr ⟨((vGiven_iff given d.1).2).1 hg, rfl⟩⟩
  | some v => exact ⟨rfl, .inl (((vGiven_iff given d.1).1 v).1 hg)⟩

/-- **C73**, counterexample. A parameter that the module does not have is accepted and ignored, whatever the module. -/
theorem C73_counterexample_unknown_parameter (m : VMod) (given : List (String × String)) (x v : String) (hx : ∀ d ∈ m.params, d.1 ≠ x) :
    vInstParams m (given ++ [(x, v)]) = vInstParams m given := by
  unfold vInstParams
  refine List.map_congr_left fun d hd => ?_
  rw [vGiven_append, if_neg (hx d hd)]

section
variable {P : Type}

/-- **C73**, names. When the files are fine, the declarations at the top are accepted exactly if the subroutines have different names, and likewise
the circuitries, the groups, the interfaces and the bitfields. What is then known are the declarations, in order. -/
theorem C73_names (fs : TopFiles) (ds : List (TopDecl P)) (hf : FilesFine fs ds) :
    ((∃ s, topGather fs ds = .ok s) ↔ ∀ k, ((topDeclared ds k).map (·.1)).Nodup) ∧
    ∀ s, topGather fs ds = .ok s → ∀ k, s.table k = topDeclared ds k := by
  have h0 : ∀ k, (topInit : TopSt P).table k = [] := fun k => by cases k <;> rfl
  have ht : ∀ s, topGather fs ds = .ok s → ∀ k, s.table k = topDeclared ds k := by
    intro s hs k
    rw [((topGather_ok ds _ s hs).1 k).1, h0]
    rfl
  refine ⟨⟨?_, fun hn => ?_⟩, ht⟩
  · rintro ⟨s, hs⟩ k
    rw [← ht s hs k]
    exact ((topGather_ok ds _ s hs).1 k).2 (by rw [h0]; simp)
  · refine topGather_total ds topInit (fun k => by rw [h0]; exact hn k) fun d hd => ⟨fun f e => ?_, (hf d hd).2⟩
    obtain ⟨a, b, c⟩ := (hf d hd).1 f e
    exact ⟨a, b, rfl, c⟩

/-- **C73**, known by name. Whatever was accepted, an instance of `x` is an instance of the first unit, processor or module of that name. -/
theorem C73_first (fs : TopFiles) (ds : List (TopDecl P)) (s : TopSt P) (hs : topGather fs ds = .ok s) (x : String) :
    s.bps.lookup x = (topBps fs ds).lookup x := by
  rw [(topGather_ok ds _ s hs).2.1]
  rfl

/-- **C73**, output, partial. If units, processors and modules have different names, the output consists of the files appended and then of what each
unit, processor and module stands for, once each, in order.

Missing: equal names, which are accepted (`C73_counterexample_same_module`). -/
theorem C73_written_partial (fs : TopFiles) (ds : List (TopDecl P)) (s : TopSt P) (hs : topGather fs ds = .ok s)
    (hn : ((topBps fs ds).map (·.1)).Nodup) :
    topWrite s = some ((ds.filterMap (·.appended fs)).map .file ++ (topBps fs ds).map fun b => b.2.out) := by
  obtain ⟨_, h2, h3, h4⟩ := topGather_ok ds _ s hs
  have e2 : ∀ x, s.bps.lookup x = (topBps fs ds).lookup x := C73_first fs ds s hs
  have e3 : s.bpOrder = (topBps fs ds).map (·.1) := h3
  have e4 : s.appends = ds.filterMap (·.appended fs) := h4
  unfold topWrite
  rw [e3, e4]
  have key : ∀ (l : List (String × TopBp P)), (∀ b ∈ l, s.bps.lookup b.1 = some b.2) →
      (l.map (·.1)).mapM (topPiece s) = some (l.map fun b => b.2.out) := by
    intro l
    induction l with
    | nil => intro _; rfl
    | cons b l ih =>
      intro h
      obtain ⟨n, b⟩ := b
      have hp : topPiece s n = some b.out := by
        unfold topPiece
        rw [h (n, b) (List.mem_cons_self ..)]
        cases b <;> rfl
      rw [List.map_cons, List.mapM_cons, hp, ih fun c hc => h c (List.mem_cons_of_mem _ hc)]
      rfl
  rw [key]
  · rfl
  · have hl : ∀ (l : List (String × TopBp P)), (l.map (·.1)).Nodup → ∀ b ∈ l, l.lookup b.1 = some b.2 := by
      intro l
      induction l with
      | nil => intro _ b hb; simp at hb
      | cons a l ih =>
        intro hn b hb
        rw [List.map_cons, List.nodup_cons] at hn
        obtain ⟨n, c⟩ := a
        rw [List.lookup_cons]
        rcases List.mem_cons.1 hb with rfl | hb
        · simp
        · have : (b.1 == n) = false := by
            simpa using fun e : b.1 = n => hn.1 (List.mem_map.2 ⟨b, hb, e⟩)
          rw [this]
          exact ih hn.2 b hb
    exact fun b hb => by rw [e2]; exact hl _ hn b hb

end

/-- **C73**, files. An imported or appended file is the first that exists among the places where it is looked for, and the name as given if
there is none. -/
theorem C73_find (fs : TopFiles) (f : String) :
    (∀ g, (topPlaces fs f).find? fs.there = some g → topFind fs f = g) ∧
    ((topPlaces fs f).find? fs.there = none → topFind fs f = f) := by
  have e : (topPlaces fs f).find? fs.there = if fs.there f then some f else
      ((fs.paths.find? (fun p => fs.there (p ++ "/" ++ fs.base f))).map (fun p => p ++ "/" ++ fs.base f)).or
        ((fs.paths.find? (fun p => fs.there (p ++ "/" ++ f))).map (fun p => p ++ "/" ++ f)) := by
    unfold topPlaces
    cases h : fs.there f with
    | true => simp [h]
    | false =>
      rw [List.cons_append, List.find?_cons_of_neg (by simp [h]), List.find?_append, List.find?_map, List.find?_map]
      rfl
  rw [e]
  unfold topFind
  cases fs.there f with
  | true => simp
  | false =>
    cases fs.paths.find? (fun p => fs.there (p ++ "/" ++ fs.base f)) with
    | some p => simp
    | none =>
      cases fs.paths.find? (fun p => fs.there (p ++ "/" ++ f)) with
      | some p => simp
      | none => simp

/-! ### Examples -/

/-- `module m #(parameter W = 8, parameter D = 2) (input clk, input [7:0] a, output reg [15:8] b, inout c);` -/
def vSrcEx : VModSrc :=
  ⟨"m", [some ("W", "8"), some ("D", "2")], [⟨.inp, none, "clk"⟩, ⟨.inp, some ("7".toList, "0".toList), "a"⟩,
    ⟨.outp, some ("15".toList, "8".toList), "b"⟩, ⟨.io, none, "c"⟩]⟩

def vModEx (file : String) : VMod :=
  ⟨file, "m", [("W", "8"), ("D", "2")], [⟨"clk", 1⟩, ⟨"a", 8⟩], [⟨"b", 8⟩], [⟨"c", 1⟩], [("clk", 0), ("a", 1)], [("b", 0)], [("c", 0)]⟩

/-- The hypotheses of `C73_ports_partial` and `C73_by_name` are met. -/
example : none ∉ vSrcEx.params ∧ (∀ p ∈ vSrcEx.ports, VDown p.range) ∧ vGather "m.v" vSrcEx = some (vModEx "m.v") ∧
    (∀ d, ((vSrcEx.along d).map (·.name)).Nodup) := by
  refine ⟨by decide, ?_, by decide +kernel, fun d => by cases d <;> decide +kernel⟩
  intro p hp
  simp only [vSrcEx, List.mem_cons, List.not_mem_nil, or_false] at hp
  rcases hp with rfl | rfl | rfl | rfl
  · trivial
  · exact ⟨7, 0, by decide +kernel, by decide +kernel, by omega, by omega⟩
  · exact ⟨15, 8, by decide +kernel, by decide +kernel, by omega, by omega⟩
  · trivial

/-- `m i<W=4, W=5, X=1>` is written with `W = 5` and the default of `D`. -/
example : vInstParams (vModEx "m.v") [("W", "4"), ("W", "5"), ("X", "1")] = [("W", "5"), ("D", "2")] := by decide +kernel

/-- Two files that both hold a module `m`; a third that does not exist. -/
def topFsEx : TopFiles := ⟨fun f => f == "m.v" || f == "lib/n.v", fun _ => some vSrcEx, ["lib"], fun f => f⟩

/-- Declarations with different names meet the hypotheses, and so does a group with the name of a circuitry. -/
example : FilesFine topFsEx [TopDecl.importv "n.v", .appendv "m.v", .unit "main" 0, .group "g" 1, .circuit "g" 2] := by
  intro d hd
  simp only [List.mem_cons, List.not_mem_nil, or_false] at hd
  rcases hd with rfl | rfl | rfl | rfl | rfl
  · refine ⟨fun f e => ?_, fun f e => by cases e⟩
    cases e
    exact ⟨by decide +kernel, ⟨vModEx "lib/n.v", by decide +kernel⟩, by decide +kernel⟩
  · refine ⟨fun f e => (by cases e), fun f e => ?_⟩
    cases e
    decide +kernel
  all_goals exact ⟨fun f e => (by cases e), fun f e => by cases e⟩

/-- **C73**, counterexample. `import('m.v') import('n.v')`, where both files hold a module `m`: accepted, since the check is made on the name of the
file. The text of the first file is written twice, that of the second never. Likewise a file that is appended twice is
written twice, and of two units with one name the first is written twice. -/
theorem C73_counterexample_same_module :
    (∃ s, topGather topFsEx ([.importv "m.v", .importv "n.v"] : List (TopDecl Nat)) = .ok s ∧
      topWrite s = some [.file "m.v", .file "m.v"]) ∧
    (∃ s, topGather topFsEx ([.appendv "m.v", .appendv "m.v"] : List (TopDecl Nat)) = .ok s ∧
      topWrite s = some [.file "m.v", .file "m.v"]) ∧
    ∃ s, topGather topFsEx ([.unit "u" 0, .unit "u" 1] : List (TopDecl Nat)) = .ok s ∧ topWrite s = some [.unit 0, .unit 0] :=
  ⟨⟨_, rfl, by decide +kernel⟩, ⟨_, rfl, by decide +kernel⟩, ⟨_, rfl, by decide +kernel⟩⟩

end Silice
