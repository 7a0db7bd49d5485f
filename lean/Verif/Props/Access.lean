import Verif.Lemmas.Access

/-!
# C32 classification of variables, C33 incoming reads
-/

set_option autoImplicit false

namespace Silice

section
variable {B : Type} [DecidableEq B]

/-- C33: the names recorded as needing their value from before are exactly those that some path of the cycle reads
before writing. The full statement has no condition on the graph; here each block is required to directly follow a
block that all paths to it go through. -/
theorem C33_incoming_reads_partial (g : B → ABlock B) (head : B) (hdom : Dominated g head) (fuel : Nat)
    (log : List (B × List String)) (e : accHead g fuel head = some log) (x : String) :
    x ∈ inVarsRead g log ↔ ∃ l c, Walk g head l c ∧ Enters g l c ∧ ReadsFirst g l c x :=
  ⟨readsFirst_of_log e, fun ⟨_, _, hw, hc, hr⟩ => log_of_readsFirst hdom e hw hc hr⟩

/-- C33: on any graph, nothing is recorded without a path that needs it. -/
theorem C33_recorded_only_if_needed (g : B → ABlock B) (head : B) (fuel : Nat)
    (log : List (B × List String)) (e : accHead g fuel head = some log) (x : String) (hx : x ∈ inVarsRead g log) :
    ∃ l c, Walk g head l c ∧ Enters g l c ∧ ReadsFirst g l c x :=
  readsFirst_of_log e hx

/-- C33: the exploration ends on every finite graph, loops included. -/
theorem C33_terminates (g : B → ABlock B) (head : B) (blocks : List B)
    (hfin : ∀ b ∈ head :: blocks, ∀ c ∈ (g b).children, c ∈ blocks) :
    ∃ fuel log, accHead g fuel head = some log ∧ ∀ k, accHead g (fuel + k) head = some log := by
  obtain ⟨f, r, e⟩ := accLoop_total blocks (fun b hb => hfin b (List.mem_cons_of_mem _ hb)) _ [] (le_refl _)
    ((g head).children.map fun c => (c, (g head).writes)) [(head, [])]
    (by
      intro p hp
      obtain ⟨d, hd, rfl⟩ := List.mem_map.mp hp
      exact hfin head (by simp) d hd)
  exact ⟨f, r, e, fun k => accLoop_mono _ _ _ _ _ e k⟩

/-- C33: so does the exploration from all heads, when the blocks are finitely many. -/
theorem C33_all_terminates (a : AccIn B) (blocks : List B) (hfin : ∀ b, b ∈ blocks) :
    ∃ fuel log, accAll a fuel = some log ∧ ∀ k, accAll a (fuel + k) = some log := by
  have key : ∀ hs : List B, ∃ fuel, ∃ logs : List (List (B × List String)), ∀ k, hs.mapM (accHead a.g (fuel + k)) = some logs := by
    intro hs
    induction hs with
    | nil => exact ⟨0, [], fun k => rfl⟩
    | cons b hs ih =>
      obtain ⟨f1, logs, e1⟩ := ih
      obtain ⟨f2, log, _, e2⟩ := C33_terminates a.g b blocks (fun _ _ c _ => hfin c)
      refine ⟨f1 + f2, log :: logs, fun k => ?_⟩
      have e1' := e1 (f2 + k)
      have e2' := e2 (f1 + k)
      rw [show f1 + (f2 + k) = f1 + f2 + k by omega] at e1'
      rw [show f2 + (f1 + k) = f1 + f2 + k by omega] at e2'
      simp [List.mapM_cons, e1', e2']
  obtain ⟨f, logs, e⟩ := key a.heads
  refine ⟨f, logs.flatten, ?_, fun k => ?_⟩
  · have := e 0
    rw [Nat.add_zero] at this
    simp [accAll, this]
  · simp [accAll, e k]

omit [DecidableEq B] in
/-- C33: what an assignment does depends only on the values of the names recorded as read by it, and it changes only the
name recorded as written. The full statement is for all left sides; here no table entry is inside a part select or a
bit field, see `C33_counterexample_index`. -/
theorem C33_assignment_partial {V : Type} (l : Lhs) (hl : l.Simple) (rhs : List String) (entry first value : List V → Nat)
    (m m' : String → V) (h : ∀ x ∈ (asgAccess l rhs).1, m x = m' x) :
    l.effect rhs entry first value m = l.effect rhs entry first value m' ∧ (asgAccess l rhs).2 = [l.var] := by
  have key : ∀ ns : List String, (∀ x ∈ ns, x ∈ (asgAccess l rhs).1) → ns.map m = ns.map m' := fun ns hs =>
    List.map_congr_left fun x hx => h x (hs x hx)
  have h1 : rhs.map m = rhs.map m' := key rhs (by cases l <;> simp +contextual [asgAccess])
  have h2 : l.entryNames.map m = l.entryNames.map m' :=
    key _ (by cases l <;> simp +contextual [asgAccess, Lhs.entryNames] <;> exact absurd hl (by simp [Lhs.Simple]))
  have h3 : l.partNames.map m = l.partNames.map m' :=
    key _ (by cases l <;> simp +contextual [asgAccess, Lhs.partNames])
  exact ⟨by simp only [Lhs.effect, h1, h2, h3], by cases l <;> rfl⟩

example : (Lhs.table "t" ["i"]).Simple := trivial

/-! ### Classification -/

/-- C32: a variable that is not tied to ports of instances is dropped exactly when nothing accesses it, is a constant
exactly when it is read and never written, and is otherwise a register or a temporary; written tables are registers.
Holds for any graph of blocks. -/
theorem C32_classes (a : AccIn B) (fuel : Nat) (log : List (B × List String)) (e : accAll a fuel = some log) (x : String)
    (hx : a.Plain x) :
    (usageOf a log x = .ok .notUsed ↔ ¬ a.WriteSome x ∧ ¬ (a.ReadSome x ∨ x ∈ a.readEnd ∨ x ∈ a.trickle)) ∧
    (usageOf a log x = .ok .const ↔ ¬ a.WriteSome x ∧ (a.ReadSome x ∨ x ∈ a.readEnd ∨ x ∈ a.trickle)) ∧
    (usageOf a log x = .ok .temporary ∨ usageOf a log x = .ok .flipflop ↔ a.WriteSome x) ∧
    (a.WriteSome x → x ∈ a.tables → usageOf a log x = .ok .flipflop) := by
  have hr := accBits_r e x
  have hw := accBits_w e x
  rw [← hr, ← hw]
  obtain ⟨h1, h2, h3⟩ := hx
  have hb : accBits a log x = { r := (accBits a log x).r, w := (accBits a log x).w } := by
    simp [accBits, h1, h2, h3]
  generalize (accBits a log x).r = r at *
  generalize (accBits a log x).w = w at *
  simp only [usageOf, hb]
  clear hb hr hw
  by_cases ht : x ∈ a.tables <;> by_cases hi : x ∈ globalInRead a log <;> cases r <;> cases w <;>
    simp_all [classify]

/-- C32: a written variable that is not a table is a temporary exactly when no path of a cycle, and nothing outside of
the code, needs its value from before; otherwise it is a register. The full statement has no condition on the graph. -/
theorem C32_register_when_needed_partial (a : AccIn B) (hdom : ∀ h ∈ a.heads, Dominated a.g h) (fuel : Nat)
    (log : List (B × List String)) (e : accAll a fuel = some log) (x : String) (hx : a.Plain x) (hw : a.WriteSome x) :
    (usageOf a log x = .ok .temporary ↔ x ∉ a.tables ∧ ¬ a.NeedsOld x) ∧
    (usageOf a log x = .ok .flipflop ↔ x ∈ a.tables ∨ a.NeedsOld x) := by
  have hr := accBits_r e x
  have hg := globalInRead_iff hdom e x
  -- a value needed from before is read
  have hnr : a.NeedsOld x → a.ReadSome x ∨ x ∈ a.readEnd ∨ x ∈ a.trickle := by
    rintro (h | ⟨head, hh, l, c, h1, h2, before, i, after, h3, h4, _⟩)
    · exact Or.inr (Or.inl h)
    · exact Or.inl ⟨head, hh, l, c, h1, h2, i, by simp [h3], h4⟩
  rw [← hr] at hnr
  rw [← hg] at *
  rw [← accBits_w e x] at hw
  obtain ⟨h1, h2, h3⟩ := hx
  have hb : accBits a log x = { r := (accBits a log x).r, w := (accBits a log x).w } := by
    simp [accBits, h1, h2, h3]
  generalize (accBits a log x).r = r at *
  generalize (accBits a log x).w = w at *
  subst hw
  simp only [usageOf, hb]
  clear hb hr hg
  by_cases ht : x ∈ a.tables <;> by_cases hi : x ∈ globalInRead a log <;> cases r <;> simp_all [classify]

/-- C32: a class is found for every variable, except for those bound to an output and also assigned, and for those bound
to an inout port, used in another way, and that are not registers by construction: these stop the compilation. -/
theorem C32_total (a : AccIn B) (fuel : Nat) (log : List (B × List String)) (e : accAll a fuel = some log) (x : String) :
    (∃ c, usageOf a log x = .ok c) ↔
      ¬ ((x ∈ a.boundOut ∧ a.WriteSome x) ∨
         (x ∈ a.boundInOut ∧ x ∉ a.internalFF ∧
           (x ∈ a.boundOut ∨ (a.ReadSome x ∨ x ∈ a.readEnd ∨ x ∈ a.trickle) ∨ a.WriteSome x))) := by
  rw [← accBits_r e x, ← accBits_w e x]
  have hb : accBits a log x = ⟨(accBits a log x).r, (accBits a log x).w, decide (x ∈ a.boundOut),
      decide (x ∈ a.boundInOut), decide (x ∈ a.internalFF)⟩ := by simp [accBits]
  generalize (accBits a log x).r = r at *
  generalize (accBits a log x).w = w at *
  simp only [usageOf, hb]
  clear hb
  by_cases h1 : x ∈ a.boundOut <;> by_cases h2 : x ∈ a.boundInOut <;> by_cases h3 : x ∈ a.internalFF <;>
    by_cases ht : x ∈ a.tables <;> by_cases hi : x ∈ globalInRead a log <;> cases r <;> cases w <;>
    simp_all [classify]

omit [DecidableEq B] in
/-- C32: bound variables get class `bound`, except registers by construction bound to an inout. -/
theorem C32_bound (a : AccIn B) (log : List (B × List String)) (x : String) (c : VClass)
    (h : usageOf a log x = .ok c) (hff : x ∉ a.internalFF) :
    c = .bound ↔ x ∈ a.boundOut ∨ x ∈ a.boundInOut := by
  have hb : accBits a log x = ⟨(accBits a log x).r, (accBits a log x).w, decide (x ∈ a.boundOut),
      decide (x ∈ a.boundInOut), false⟩ := by simp [accBits, hff]
  generalize (accBits a log x).r = r at *
  generalize (accBits a log x).w = w at *
  simp only [usageOf, hb] at h
  clear hb
  by_cases h1 : x ∈ a.boundOut <;> by_cases h2 : x ∈ a.boundInOut <;>
    by_cases ht : x ∈ a.tables <;> by_cases hi : x ∈ globalInRead a log <;> cases r <;> cases w <;>
    simp_all [classify] <;> simp [← h]

end

/-! ### Cases meeting the hypotheses -/

/-- `if (c) { x = a; } else { y = 1; } z = x;` in state 0: blocks 0 (test), 1, 2, 3 (after), then state 4 `x = z`. -/
def exAcc : Nat → ABlock Nat
  | 0 => ⟨[(["c"], [])], true, [1, 2, 3]⟩
  | 1 => ⟨[asgAccess (.whole "x") ["a"]], false, [3]⟩
  | 2 => ⟨[asgAccess (.whole "y") []], false, [3]⟩
  | 3 => ⟨[asgAccess (.whole "z") ["x"]], false, [4]⟩
  | 4 => ⟨[asgAccess (.whole "x") ["z"]], true, [0]⟩
  | _ => ⟨[], true, []⟩

theorem exAcc_walk {l : List Nat} {c : Nat} (h : Walk exAcc 0 l c) :
    (l = [] ∧ c = 0) ∨ (l = [0] ∧ (c = 1 ∨ c = 2 ∨ c = 3)) ∨ ((l = [0, 1] ∨ l = [0, 2]) ∧ c = 3) ∨
      ((l = [0, 3] ∨ l = [0, 1, 3] ∨ l = [0, 2, 3]) ∧ c = 4) := by
  induction h with
  | start => simp
  | @step l b c _ hb hc ih =>
    rcases ih with ⟨rfl, rfl⟩ | ⟨rfl, rfl | rfl | rfl⟩ | ⟨rfl | rfl, rfl⟩ | ⟨rfl | rfl | rfl, rfl⟩ <;>
      simp [exAcc] at hb hc ⊢ <;> tauto

theorem exAcc_dominated : Dominated exAcc 0 := by
  intro l c hw hl hs
  have hc : c = 1 ∨ c = 2 ∨ c = 3 := by
    rcases exAcc_walk hw with ⟨rfl, rfl⟩ | ⟨_, h⟩ | ⟨_, rfl⟩ | ⟨_, rfl⟩
    · exact absurd rfl hl
    · exact h
    · simp
    · simp [exAcc] at hs
  refine ⟨0, ?_, ?_⟩
  · rcases hc with rfl | rfl | rfl <;> simp [exAcc]
  · intro l' hw'
    rcases exAcc_walk hw' with ⟨rfl, rfl⟩ | ⟨rfl, _⟩ | ⟨rfl | rfl, _⟩ | ⟨rfl | rfl | rfl, _⟩
    · simp at hc
    all_goals simp

example : ∃ log, accHead exAcc 10 0 = some log ∧ inVarsRead exAcc log = ["c", "a", "x", "x"] :=
  ⟨_, rfl, by decide +kernel⟩

/-- The same block after both branches is examined three times; on the path through block 2, `x` is read first. -/
example : Dominated exAcc 0 ∧ Walk exAcc 0 [0, 2] 3 ∧ Enters exAcc [0, 2] 3 ∧ ReadsFirst exAcc [0, 2] 3 "x" := by
  refine ⟨exAcc_dominated, ?_, Or.inr rfl, [], (["x"], ["z"]), [], rfl, by simp, by decide +kernel, by simp⟩
  exact Walk.step (l := [0]) (Walk.step (l := []) .start (Or.inl rfl) (by simp [exAcc])) (Or.inr rfl) (by simp [exAcc])

/-- `exAcc` as a unit with `t` a table never written, `m` bound to an output. -/
def exAccIn : AccIn Nat :=
  { g := exAcc, heads := [0], readEnd := [], trickle := [], boundOut := ["m"], boundInOut := [], internalFF := [],
    tables := ["t"] }

example : ∃ log, accAll exAccIn 10 = some log ∧ usageOf exAccIn log "x" = .ok .flipflop ∧
    usageOf exAccIn log "z" = .ok .temporary ∧ usageOf exAccIn log "a" = .ok .const ∧
    usageOf exAccIn log "t" = .ok .notUsed ∧ usageOf exAccIn log "m" = .ok .bound ∧ exAccIn.Plain "x" ∧
    (∀ h ∈ exAccIn.heads, Dominated exAccIn.g h) := by
  refine ⟨_, rfl, ?_, ?_, ?_, ?_, ?_, ?_, ?_⟩
  · decide +kernel
  · decide +kernel
  · decide +kernel
  · decide +kernel
  · decide +kernel
  · exact ⟨by decide, by decide, by decide⟩
  · intro h hh
    have : h = 0 := by simpa [exAccIn] using hh
    exact this ▸ exAcc_dominated

example : ∀ b ∈ (0 : Nat) :: [0, 1, 2, 3, 4], ∀ c ∈ (exAcc b).children, c ∈ [0, 1, 2, 3, 4] := by decide +kernel

/-! ### Where it fails -/

/-- A graph where two paths of different lengths join: 0 → 1 → 4, 0 → 2 → 3 → 4; only block 1 writes `x`, 4 reads it. -/
def exJoin : Nat → ABlock Nat
  | 0 => ⟨[], true, [1, 2]⟩
  | 1 => ⟨[asgAccess (.whole "x") []], false, [4]⟩
  | 2 => ⟨[], false, [3]⟩
  | 3 => ⟨[], false, [4]⟩
  | 4 => ⟨[asgAccess (.whole "y") ["x"]], false, []⟩
  | _ => ⟨[], true, []⟩

/-- C33 fails without the condition on the graph: the longer path reads `x` first, which is not recorded, since the
block had been visited along the shorter path. -/
theorem C33_counterexample_join : ∃ log, accHead exJoin 10 0 = some log ∧ "x" ∉ inVarsRead exJoin log ∧
    Walk exJoin 0 [0, 2, 3] 4 ∧ Enters exJoin [0, 2, 3] 4 ∧ ReadsFirst exJoin [0, 2, 3] 4 "x" := by
  refine ⟨_, rfl, by decide +kernel, ?_, Or.inr rfl, [], (["x"], ["y"]), [], rfl, by simp, by decide +kernel, by simp⟩
  refine Walk.step (l := [0, 2]) (Walk.step (l := [0]) (Walk.step (l := []) .start (Or.inl rfl) ?_) (Or.inr rfl) ?_)
    (Or.inr rfl) ?_ <;> simp [exJoin]

/-- `x[0,1] = 1; y = x;` -/
def exPart : AccIn Nat :=
  { g := fun _ => ⟨[asgAccess (.part "x" []) [], asgAccess (.whole "y") ["x"]], true, []⟩
    heads := [0], readEnd := ["y"], trickle := [], boundOut := [], boundInOut := [], internalFF := [], tables := [] }

/-- C33, C32 fail for partial assignments: `x[0,1] = 1; y = x;` makes `x` a temporary, although `y` depends on the
value `x` had before (bit 1 is kept by the assignment). -/
theorem C33_counterexample_part : ∃ log, accAll exPart 10 = some log ∧ usageOf exPart log "x" = .ok .temporary ∧
    ∃ old old' : Fin 2 → Bool, Function.update old 0 true ≠ Function.update old' 0 true := by
  refine ⟨_, rfl, by decide +kernel, fun _ => true, fun _ => false, ?_⟩
  intro h
  have := congrFun h 1
  simp at this

/-- `t[i][0,4] = v; i = w;` in a cycle, the only accesses to `i`. -/
def exIndex : AccIn Nat :=
  { g := fun _ => ⟨[asgAccess (.tablePart "t" ["i"] []) ["v"], asgAccess (.whole "i") ["w"]], true, []⟩
    heads := [0], readEnd := [], trickle := [], boundOut := [], boundInOut := [], internalFF := [], tables := ["t"] }

/-- C33 is false for a table entry inside a part select: the entry changed depends on the value `i` had in the previous
cycle, but `i` is not recorded as read and gets no register. -/
theorem C33_counterexample_index :
    (∃ log, accAll exIndex 10 = some log ∧ usageOf exIndex log "i" = .ok .temporary) ∧
    ∃ m m' : String → Nat, (∀ x ∈ (asgAccess (.tablePart "t" ["i"] []) ["v"]).1, m x = m' x) ∧
      (Lhs.tablePart "t" ["i"] []).effect ["v"] List.sum List.sum List.sum m ≠
        (Lhs.tablePart "t" ["i"] []).effect ["v"] List.sum List.sum List.sum m' := by
  refine ⟨⟨_, rfl, by decide +kernel⟩, fun _ => 0, fun x => if x = "i" then 1 else 0, ?_, ?_⟩
  · simp [asgAccess]
  · simp [Lhs.effect, Lhs.var, Lhs.entryNames, Lhs.partNames]

end Silice
