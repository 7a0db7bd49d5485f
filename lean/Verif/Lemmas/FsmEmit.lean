import Verif.Spec.FsmRegion

/-! Correctness of the code emitted for one state. -/

set_option autoImplicit false

namespace Silice
variable {B σ : Type}

/-- Control arrives at block `n`: a state ends the cycle, any other block is executed. -/
def Arrives (g : Cfg B) (S : Sem B σ) (n : B) (s : σ) (tr : List B) (s' : σ) (o : Out B) : Prop :=
  ((g.blk n).isState = true ∧ tr = [] ∧ s' = s ∧ o = .jump n) ∨
  ((g.blk n).isState = false ∧ Cycle g S n s tr s' o)

theorem Cycle.ofArrives {g : Cfg B} {S : Sem B σ} {b n : B} {s s' : σ} {tr : List B} {o : Out B}
    (hg : go g S b (S.exec b s) = .to n) (h : Arrives g S n (S.exec b s) tr s' o) :
    Cycle g S b s (b :: tr) s' o := by
  rcases h with ⟨h1, rfl, rfl, rfl⟩ | ⟨h1, h2⟩
  · exact Cycle.state hg h1
  · exact Cycle.more hg h1 h2

/-- The code, from anywhere, ends the cycle as control flow arriving at `n` does. -/
def Ends (g : Cfg B) (S : Sem B σ) (n : B) (code : Code B) : Prop :=
  ∀ (s : σ) (t0 : List B) (c0 : Option (Out B)), ∃ tr s' o, Arrives g S n s tr s' o ∧
    code.run S ⟨t0, s, c0⟩ = ⟨t0 ++ tr, s', some o⟩

/-- The code executes the blocks from `n` to `stop`, exclusive. -/
def Falls (g : Cfg B) (S : Sem B σ) (n stop : B) (code : Code B) : Prop :=
  ∀ (s : σ) (t0 : List B) (c0 : Option (Out B)), ∃ tr s',
    code.run S ⟨t0, s, c0⟩ = ⟨t0 ++ tr, s', c0⟩ ∧
    ∀ tr2 s2 o, Arrives g S stop s' tr2 s2 o → Arrives g S n s (tr ++ tr2) s2 o

/-- Same for code that starts by executing block `b` itself. -/
def EndsFrom (g : Cfg B) (S : Sem B σ) (b : B) (code : Code B) : Prop :=
  ∀ (s : σ) (t0 : List B) (c0 : Option (Out B)), ∃ tr s' o, Cycle g S b s tr s' o ∧
    code.run S ⟨t0, s, c0⟩ = ⟨t0 ++ tr, s', some o⟩

def FallsFrom (g : Cfg B) (S : Sem B σ) (b stop : B) (code : Code B) : Prop :=
  ∀ (s : σ) (t0 : List B) (c0 : Option (Out B)), ∃ tr s',
    code.run S ⟨t0, s, c0⟩ = ⟨t0 ++ tr, s', c0⟩ ∧
    ∀ tr2 s2 o, Arrives g S stop s' tr2 s2 o → Cycle g S b s (tr ++ tr2) s2 o

/-- What is claimed of the code of a region. -/
def Good (g : Cfg B) (S : Sem B σ) (st : Option B) (b : B) (k : Bool) (code : Code B) : Prop :=
  if k then EndsFrom g S b code else ∃ n, st = some n ∧ FallsFrom g S b n code

theorem EndsFrom.enter {g : Cfg B} {S : Sem B σ} {n : B} {code : Code B}
    (hn : (g.blk n).isState = false) (h : EndsFrom g S n code) : Ends g S n code := by
  intro s t0 c0
  obtain ⟨tr, s', o, h1, h2⟩ := h s t0 c0
  exact ⟨tr, s', o, .inr ⟨hn, h1⟩, h2⟩

theorem Ends.jump {g : Cfg B} {S : Sem B σ} {n : B} (hn : (g.blk n).isState = true) :
    Ends g S n (.jump n) := by
  intro s t0 c0
  exact ⟨[], s, .jump n, .inl ⟨hn, rfl, rfl, rfl⟩, by simp [Code.run]⟩

theorem FallsFrom.enter {g : Cfg B} {S : Sem B σ} {n m : B} {code : Code B}
    (hn : (g.blk n).isState = false) (h : FallsFrom g S n m code) : Falls g S n m code := by
  intro s t0 c0
  obtain ⟨tr, s', h1, h2⟩ := h s t0 c0
  exact ⟨tr, s', h1, fun tr2 s2 o ha => .inr ⟨hn, h2 tr2 s2 o ha⟩⟩

theorem Falls.skip {g : Cfg B} {S : Sem B σ} {n : B} : Falls g S n n .skip := by
  intro s t0 c0
  exact ⟨[], s, by simp [Code.run], fun tr2 s2 o h => by simpa using h⟩

/-- Falling to `m`, then ending from `m`. -/
theorem Falls.thenEnds {g : Cfg B} {S : Sem B σ} {n m : B} {x y : Code B}
    (h : Falls g S n m x) (h' : Ends g S m y) : Ends g S n (.seq x y) := by
  intro s t0 c0
  obtain ⟨tr, s', h1, h2⟩ := h s t0 c0
  obtain ⟨tr2, s2, o, h3, h4⟩ := h' s' (t0 ++ tr) c0
  exact ⟨tr ++ tr2, s2, o, h2 _ _ _ h3, by simp [Code.run, h1, h4]⟩

theorem Falls.thenFalls {g : Cfg B} {S : Sem B σ} {n m k : B} {x y : Code B}
    (h : Falls g S n m x) (h' : Falls g S m k y) : Falls g S n k (.seq x y) := by
  intro s t0 c0
  obtain ⟨tr, s', h1, h2⟩ := h s t0 c0
  obtain ⟨tr2, s2, h3, h4⟩ := h' s' (t0 ++ tr) c0
  refine ⟨tr ++ tr2, s2, by simp [Code.run, h1, h3], ?_⟩
  intro tr3 s3 o ha
  rw [List.append_assoc]
  exact h2 _ _ _ (h4 _ _ _ ha)

/-- Body of `b`, then code for one of its successors, chosen as the source does. -/
theorem bodyEnds {g : Cfg B} {S : Sem B σ} {b : B} {y : Code B}
    (h : ∀ s : σ, ∃ (n : B) (z : Code B), go g S b (S.exec b s) = .to n ∧ Ends g S n z ∧
      ∀ t0 c0, y.run S ⟨t0, S.exec b s, c0⟩ = z.run S ⟨t0, S.exec b s, c0⟩) :
    EndsFrom g S b (.seq (.body b) y) := by
  intro s t0 c0
  obtain ⟨n, z, h1, h2, h3⟩ := h s
  obtain ⟨tr, s', o, h4, h5⟩ := h2 (S.exec b s) (t0 ++ [b]) c0
  refine ⟨b :: tr, s', o, Cycle.ofArrives h1 h4, ?_⟩
  show y.run S ⟨t0 ++ [b], S.exec b s, c0⟩ = _
  rw [h3, h5]
  simp

theorem bodyFalls {g : Cfg B} {S : Sem B σ} {b m : B} {y : Code B}
    (h : ∀ s : σ, ∃ (n : B) (z : Code B), go g S b (S.exec b s) = .to n ∧ Falls g S n m z ∧
      ∀ t0 c0, y.run S ⟨t0, S.exec b s, c0⟩ = z.run S ⟨t0, S.exec b s, c0⟩) :
    FallsFrom g S b m (.seq (.body b) y) := by
  intro s t0 c0
  obtain ⟨n, z, h1, h2, h3⟩ := h s
  obtain ⟨tr, s', h4, h5⟩ := h2 (S.exec b s) (t0 ++ [b]) c0
  refine ⟨b :: tr, s', ?_, ?_⟩
  · show y.run S ⟨t0 ++ [b], S.exec b s, c0⟩ = _
    rw [h3, h4]
    simp
  · intro tr2 s2 o ha
    exact Cycle.ofArrives h1 (h5 _ _ _ ha)

theorem FallsFrom.thenEnds {g : Cfg B} {S : Sem B σ} {b m : B} {x y : Code B}
    (h : FallsFrom g S b m x) (h' : Ends g S m y) : EndsFrom g S b (.seq x y) := by
  intro s t0 c0
  obtain ⟨tr, s', h1, h2⟩ := h s t0 c0
  obtain ⟨tr2, s2, o, h3, h4⟩ := h' s' (t0 ++ tr) c0
  exact ⟨tr ++ tr2, s2, o, h2 _ _ _ h3, by simp [Code.run, h1, h4]⟩

theorem FallsFrom.thenFalls {g : Cfg B} {S : Sem B σ} {b m k : B} {x y : Code B}
    (h : FallsFrom g S b m x) (h' : Falls g S m k y) : FallsFrom g S b k (.seq x y) := by
  intro s t0 c0
  obtain ⟨tr, s', h1, h2⟩ := h s t0 c0
  obtain ⟨tr2, s2, h3, h4⟩ := h' s' (t0 ++ tr) c0
  refine ⟨tr ++ tr2, s2, by simp [Code.run, h1, h3], ?_⟩
  intro tr3 s3 o ha
  rw [List.append_assoc]
  exact h2 _ _ _ (h4 _ _ _ ha)

/-! ### Switch entries -/

/-- Code of the entries of a switch, related to the blocks of the switch. -/
inductive EntriesOK (P : B → Code B → Prop) : List (Option Nat × B) → List (Option Nat × Code B) → Prop where
  | nil : EntriesOK P [] []
  | cons {v : Option Nat} {b : B} {x : Code B} {cs : List (Option Nat × B)}
      {es : List (Option Nat × Code B)} : P b x → EntriesOK P cs es →
      EntriesOK P ((v, b) :: cs) ((v, x) :: es)

theorem EntriesOK.find {S : Sem B σ} {P : B → Code B → Prop} {cs : List (Option Nat × B)}
    {es : List (Option Nat × Code B)} (h : EntriesOK P cs es) (q : Option Nat → Bool) :
    (∃ v b x, cs.find? (fun e => q e.1) = some (v, b) ∧ P b x ∧
      (Code.run.runEntries S es).find? (fun e => q e.1) = some (v, x.run S)) ∨
    (cs.find? (fun e => q e.1) = none ∧ (Code.run.runEntries S es).find? (fun e => q e.1) = none) := by
  induction h with
  | nil => right; simp [Code.run.runEntries]
  | @cons v b x cs es hp _ ih =>
    simp only [Code.run.runEntries, List.find?_cons]
    by_cases hq : q v = true
    · left
      exact ⟨v, b, x, by simp [hq], hp, by simp [hq]⟩
    · simp only [hq]
      exact ih

theorem EntriesOK.pick {S : Sem B σ} {P : B → Code B → Prop} {cs : List (Option Nat × B)}
    {es : List (Option Nat × Code B)} (h : EntriesOK P cs es) (m : Nat → Bool) :
    (∃ b x, pickCase m cs = some b ∧ P b x ∧ pickCase m (Code.run.runEntries S es) = some (x.run S)) ∨
    (pickCase m cs = none ∧ pickCase m (Code.run.runEntries S es) = none) := by
  have h1 := h.find (S := S) (labelMatches m)
  have h2 := h.find (S := S) (fun o => o.isNone)
  unfold pickCase
  rcases h1 with ⟨v, b, x, e1, e2, e3⟩ | ⟨e1, e3⟩
  · left
    refine ⟨b, x, ?_, e2, ?_⟩
    · rw [e1]
    · rw [e3]
  · rw [e1, e3]
    rcases h2 with ⟨v, b, x, d1, d2, d3⟩ | ⟨d1, d3⟩
    · left
      refine ⟨b, x, ?_, d2, ?_⟩
      · simp only []; rw [d1]; rfl
      · simp only []; rw [d3]; rfl
    · right
      simp only []
      rw [d1, d3]
      exact ⟨rfl, rfl⟩

theorem pickCase_default (m : Nat → Bool) {A : Type} (cs : List (Option Nat × A))
    (h : ∃ p ∈ cs, p.1 = none) : pickCase m cs ≠ none := by
  unfold pickCase
  obtain ⟨p, hp, hn⟩ := h
  cases hf : cs.find? (fun e => labelMatches m e.1) with
  | some e => simp
  | none =>
    simp only []
    intro hc
    rw [Option.map_eq_none_iff, List.find?_eq_none] at hc
    have := hc p hp
    simp [hn] at this

theorem entries_exist (P : B → Code B → Prop) (en : Nat → B → Option (Code B))
    (cs : List (Option Nat × B))
    (h : ∀ p ∈ cs, ∃ f0 code, (∀ f, f0 ≤ f → en f p.2 = some code) ∧ P p.2 code) :
    ∃ f0 es, (∀ f, f0 ≤ f → (cs.mapM fun p => (en f p.2).map fun x => (p.1, x)) = some es) ∧
      EntriesOK P cs es := by
  induction cs with
  | nil => exact ⟨0, [], fun f _ => by simp, .nil⟩
  | cons p cs ih =>
    obtain ⟨f1, es, h1, h2⟩ := ih (fun q hq => h q (List.mem_cons_of_mem _ hq))
    obtain ⟨f2, x, h3, h4⟩ := h p (List.mem_cons_self ..)
    obtain ⟨v, b⟩ := p
    refine ⟨max f1 f2, (v, x) :: es, ?_, .cons h4 h2⟩
    intro f hf
    have e1 := h1 f (by omega)
    have e2 := h3 f (by omega)
    rw [List.mapM_cons, e1]
    simp [e2]

/-! ### Main induction -/

variable [DecidableEq B]

theorem emit_good (g : Cfg B) (num : Num B) (S : Sem B σ) (st : Option B) (b : B) (k : Bool)
    (h : Reg g num st b k) :
    ∃ f0 code, (∀ f, f0 ≤ f → emitFrom g num f st b = some code) ∧ Good g S st b k code := by
  -- continuing at `a` after a conditional
  have contLemma : ∀ (st : Option B) (a : B) (k : Bool), (g.blk a).isState = false →
      (st = some a → k = false) →
      (st ≠ some a → ∃ f0 code, (∀ f, f0 ≤ f → emitFrom g num f st a = some code) ∧
        Good g S st a k code) →
      ∃ f0 code, (∀ f, f0 ≤ f → (if (g.blk a).isState then some (.jump a)
        else if st = some a then some .skip else emitFrom g num f st a) = some code) ∧
        (if k then Ends g S a code else ∃ n, st = some n ∧ Falls g S a n code) := by
    intro st a k ha h1 h2
    by_cases hst : st = some a
    · refine ⟨0, .skip, fun f _ => by simp [ha, hst], ?_⟩
      rw [h1 hst]
      exact ⟨a, hst, Falls.skip⟩
    · obtain ⟨f0, code, h3, h4⟩ := h2 hst
      refine ⟨f0, code, fun f hf => by simp [ha, hst, h3 f hf], ?_⟩
      unfold Good at h4
      cases k with
      | true => exact h4.enter ha
      | false =>
        obtain ⟨n, hn, h5⟩ := h4
        exact ⟨n, hn, h5.enter ha⟩
  -- entering a side that ends
  have enterEnds : ∀ (a i : B), ((g.blk i).isState = false → ∃ f0 code,
        (∀ f, f0 ≤ f → emitFrom g num f (some a) i = some code) ∧ Good g S (some a) i true code) →
      ∃ f0 code, (∀ f, f0 ≤ f → (if (g.blk i).isState then some (.jump i)
        else emitFrom g num f (some a) i) = some code) ∧ Ends g S i code := by
    intro a i hi
    by_cases hs : (g.blk i).isState = true
    · exact ⟨0, .jump i, fun f _ => by simp [hs], Ends.jump hs⟩
    · have hs' : (g.blk i).isState = false := by simpa using hs
      obtain ⟨f0, code, h1, h2⟩ := hi hs'
      exact ⟨f0, code, fun f hf => by simp [hs', h1 f hf], EndsFrom.enter hs' h2⟩
  induction h with
  | @stop st b ha =>
    refine ⟨1, .seq (.body b) .halt, ?_, ?_⟩
    · intro f hf
      obtain ⟨f, rfl⟩ : ∃ m, f = m + 1 := ⟨f - 1, by omega⟩
      simp [emitFrom, ha]
    · intro s t0 c0
      exact ⟨[b], _, .halt, .out (by simp [go, ha]), by simp [Code.run]⟩
  | @ret st b k ha =>
    refine ⟨1, .seq (.body b) (.ret b k), ?_, ?_⟩
    · intro f hf
      obtain ⟨f, rfl⟩ : ∃ m, f = m + 1 := ⟨f - 1, by omega⟩
      simp [emitFrom, ha]
    · intro s t0 c0
      exact ⟨[b], _, .ret b k, .out (by simp [go, ha]), by simp [Code.run]⟩
  | @call st b t r ha =>
    refine ⟨1, .seq (.body b) (.call b t r), ?_, ?_⟩
    · intro f hf
      obtain ⟨f, rfl⟩ : ∃ m, f = m + 1 := ⟨f - 1, by omega⟩
      simp [emitFrom, ha]
    · intro s t0 c0
      exact ⟨[b], _, .call b t r, .out (by simp [go, ha]), by simp [Code.run]⟩
  | @wait st b w n k ha hw hn =>
    refine ⟨1, .seq (.body b) (.waitDone k n w), ?_, ?_⟩
    · intro f hf
      obtain ⟨f, rfl⟩ : ∃ m, f = m + 1 := ⟨f - 1, by omega⟩
      simp [emitFrom, ha]
    · refine bodyEnds fun s => ?_
      by_cases hd : S.done k (S.exec b s) = true
      · exact ⟨n, .jump n, by simp [go, ha, hd], Ends.jump hn, fun _ _ => by simp [Code.run, hd]⟩
      · exact ⟨w, .jump w, by simp [go, ha, hd], Ends.jump hw, fun _ _ => by simp [Code.run, hd]⟩
  | @gotoState st b n ha hn =>
    refine ⟨1, .seq (.body b) (.jump n), ?_, ?_⟩
    · intro f hf
      obtain ⟨f, rfl⟩ : ∃ m, f = m + 1 := ⟨f - 1, by omega⟩
      simp [emitFrom, ha, hn]
    · exact bodyEnds fun s => ⟨n, .jump n, by simp [go, ha], Ends.jump hn, fun _ _ => rfl⟩
  | @gotoStop b n ha hn =>
    refine ⟨1, .seq (.body b) .skip, ?_, ?_⟩
    · intro f hf
      obtain ⟨f, rfl⟩ : ∃ m, f = m + 1 := ⟨f - 1, by omega⟩
      simp [emitFrom, ha, hn]
    · exact ⟨n, rfl, bodyFalls fun s => ⟨n, .skip, by simp [go, ha], Falls.skip, fun _ _ => rfl⟩⟩
  | @gotoMore st b n k ha hn hst _ ih =>
    obtain ⟨f0, code, h1, h2⟩ := ih
    refine ⟨f0 + 1, .seq (.body b) code, ?_, ?_⟩
    · intro f hf
      obtain ⟨f, rfl⟩ : ∃ m, f = m + 1 := ⟨f - 1, by omega⟩
      simp [emitFrom, ha, hn, hst, h1 f (by omega)]
    · unfold Good at h2 ⊢
      cases k with
      | true =>
        exact bodyEnds fun s => ⟨n, code, by simp [go, ha], EndsFrom.enter hn h2, fun _ _ => rfl⟩
      | false =>
        obtain ⟨m, hm, h3⟩ := h2
        exact ⟨m, hm, bodyFalls fun s => ⟨n, code, by simp [go, ha], h3.enter hn, fun _ _ => rfl⟩⟩
  | @ifBoth st b i it e et a c x y k ha hna hpp hi _ he _ hk1 _ ih1 ih2 ih3 =>
    obtain ⟨f1, ci, p1, q1⟩ := ih1
    obtain ⟨f2, ce, p2, q2⟩ := ih2
    obtain ⟨f3, ca, p3, q3⟩ := contLemma st a k hna hk1 ih3
    refine ⟨max f1 (max f2 f3) + 1, .seq (.seq (.body b) (.ite c ci ce)) ca, ?_, ?_⟩
    · intro f hf
      obtain ⟨f, rfl⟩ : ∃ m, f = m + 1 := ⟨f - 1, by omega⟩
      have e1 := p1 f (by omega)
      have e2 := p2 f (by omega)
      have e3 := p3 f (by omega)
      simp only [emitFrom, ha, hi, he, e1, e2, hna, Bool.false_eq_true, if_false,
        Option.bind_some]
      simp only [hna, Bool.false_eq_true, if_false] at e3
      simp only [e3]
      cases h1 : (num.pid it).isSome <;> cases h2 : (num.pid et).isSome <;>
        simp_all
    · have hbody : FallsFrom g S b a (.seq (.body b) (.ite c ci ce)) := by
        obtain ⟨n1, en1, q1⟩ := q1
        obtain ⟨n2, en2, q2⟩ := q2
        cases en1; cases en2
        refine bodyFalls fun s => ?_
        by_cases ht : S.test c (S.exec b s) = true
        · exact ⟨i, ci, by simp [go, ha, ht], q1.enter hi, fun _ _ => by simp [Code.run, ht]⟩
        · exact ⟨e, ce, by simp [go, ha, ht], q2.enter he, fun _ _ => by simp [Code.run, ht]⟩
      unfold Good
      cases k with
      | true => exact hbody.thenEnds q3
      | false =>
        obtain ⟨n, hn, q3⟩ := q3
        exact ⟨n, hn, hbody.thenFalls q3⟩
  | @ifElseEnds st b i it e et a c x y ha hna hit het hi _ _ _ ih1 ih2 ih3 =>
    obtain ⟨f1, ci, p1, q1⟩ := ih1
    obtain ⟨f2, ce, p2, q2⟩ := enterEnds a e ih2
    obtain ⟨f3, ca, p3, q3⟩ := ih3
    refine ⟨max f1 (max f2 f3) + 1, .seq (.body b) (.ite c (.seq ci ca) ce), ?_, ?_⟩
    · intro f hf
      obtain ⟨f, rfl⟩ : ∃ m, f = m + 1 := ⟨f - 1, by omega⟩
      have e1 := p1 f (by omega)
      have e2 := p2 f (by omega)
      have e3 := p3 f (by omega)
      simp only [emitFrom, ha, hi, hna, Bool.false_eq_true, if_false, e1, e2, e3, hit, het]
      simp
    · obtain ⟨n1, en1, q1⟩ := q1
      cases en1
      refine bodyEnds fun s => ?_
      by_cases ht : S.test c (S.exec b s) = true
      · exact ⟨i, .seq ci ca, by simp [go, ha, ht], (q1.enter hi).thenEnds (EndsFrom.enter hna q3),
          fun _ _ => by simp [Code.run, ht]⟩
      · exact ⟨e, ce, by simp [go, ha, ht], q2, fun _ _ => by simp [Code.run, ht]⟩
  | @ifIfEnds st b i it e et a c x y ha hna hit het _ he _ _ ih1 ih2 ih3 =>
    obtain ⟨f1, ci, p1, q1⟩ := enterEnds a i ih1
    obtain ⟨f2, ce, p2, q2⟩ := ih2
    obtain ⟨f3, ca, p3, q3⟩ := ih3
    refine ⟨max f1 (max f2 f3) + 1, .seq (.body b) (.ite c ci (.seq ce ca)), ?_, ?_⟩
    · intro f hf
      obtain ⟨f, rfl⟩ : ∃ m, f = m + 1 := ⟨f - 1, by omega⟩
      have e1 := p1 f (by omega)
      have e2 := p2 f (by omega)
      have e3 := p3 f (by omega)
      simp only [emitFrom, ha, he, hna, Bool.false_eq_true, if_false, e1, e2, e3, hit, het]
      simp
    · obtain ⟨n2, en2, q2⟩ := q2
      cases en2
      refine bodyEnds fun s => ?_
      by_cases ht : S.test c (S.exec b s) = true
      · exact ⟨i, ci, by simp [go, ha, ht], q1, fun _ _ => by simp [Code.run, ht]⟩
      · exact ⟨e, .seq ce ca, by simp [go, ha, ht], (q2.enter he).thenEnds (EndsFrom.enter hna q3),
          fun _ _ => by simp [Code.run, ht]⟩
  | @ifState st b i it e et a c x y ha hna _ _ ih1 ih2 =>
    obtain ⟨f1, ci, p1, q1⟩ := enterEnds a i ih1
    obtain ⟨f2, ce, p2, q2⟩ := enterEnds a e ih2
    refine ⟨max f1 f2 + 1, .seq (.body b) (.ite c ci ce), ?_, ?_⟩
    · intro f hf
      obtain ⟨f, rfl⟩ : ∃ m, f = m + 1 := ⟨f - 1, by omega⟩
      have e1 := p1 f (by omega)
      have e2 := p2 f (by omega)
      simp only [emitFrom, ha, hna, if_true, e1, e2]
      simp
    · refine bodyEnds fun s => ?_
      by_cases ht : S.test c (S.exec b s) = true
      · exact ⟨i, ci, by simp [go, ha, ht], q1, fun _ _ => by simp [Code.run, ht]⟩
      · exact ⟨e, ce, by simp [go, ha, ht], q2, fun _ _ => by simp [Code.run, ht]⟩
  | @switchFall st b a c cs k ha hna hcs _ hk1 _ ih1 ih2 =>
    obtain ⟨f1, es, p1, q1⟩ := entries_exist (fun n x => Falls g S n a x)
      (fun f n => if (g.blk n).isState then some (.jump n) else emitFrom g num f (some a) n) cs (by
        intro p hp
        obtain ⟨f0, code, h1, h2⟩ := ih1 p hp
        obtain ⟨n, hn, h2⟩ := h2
        cases hn
        exact ⟨f0, code, fun f hf => by simp [hcs p hp, h1 f hf], h2.enter (hcs p hp)⟩)
    obtain ⟨f3, ca, p3, q3⟩ := contLemma st a k hna hk1 ih2
    refine ⟨max f1 f3 + 1, .seq (.seq (.body b) (.case c es)) ca, ?_, ?_⟩
    · intro f hf
      obtain ⟨f, rfl⟩ : ∃ m, f = m + 1 := ⟨f - 1, by omega⟩
      have e1 := p1 f (by omega)
      have e3 := p3 f (by omega)
      simp only [hna, Bool.false_eq_true, if_false] at e3
      simp only [emitFrom, ha, e1, e3, hna, Bool.false_eq_true, if_false]
      simp
    · have hbody : FallsFrom g S b a (.seq (.body b) (.case c es)) := by
        refine bodyFalls fun s => ?_
        rcases q1.pick (S := S) (fun v => S.label c v (S.exec b s)) with ⟨n, z, e1, e2, e3⟩ | ⟨e1, e3⟩
        · exact ⟨n, z, by simp [go, ha, e1], e2, fun _ _ => by simp [Code.run, e3]⟩
        · exact ⟨a, .skip, by simp [go, ha, e1], Falls.skip, fun _ _ => by simp [Code.run, e3]⟩
      unfold Good
      cases k with
      | true => exact hbody.thenEnds q3
      | false =>
        obtain ⟨n, hn, q3⟩ := q3
        exact ⟨n, hn, hbody.thenFalls q3⟩
  | @switchState st b a c cs ha hna hdef _ ih1 =>
    obtain ⟨f1, es, p1, q1⟩ := entries_exist (fun n x => Ends g S n x)
      (fun f n => if (g.blk n).isState then some (.jump n) else emitFrom g num f (some a) n) cs (by
        intro p hp
        exact enterEnds a p.2 (ih1 p hp))
    refine ⟨f1 + 1, .seq (.body b) (.case c es), ?_, ?_⟩
    · intro f hf
      obtain ⟨f, rfl⟩ : ∃ m, f = m + 1 := ⟨f - 1, by omega⟩
      have e1 := p1 f (by omega)
      simp only [emitFrom, ha, e1, hna, if_true]
      simp
    · refine bodyEnds fun s => ?_
      rcases q1.pick (S := S) (fun v => S.label c v (S.exec b s)) with ⟨n, z, e1, e2, e3⟩ | ⟨e1, _⟩
      · exact ⟨n, z, by simp [go, ha, e1], e2, fun _ _ => by simp [Code.run, e3]⟩
      · exact absurd e1 (pickCase_default _ cs hdef)
  | @loop st b i a c ha _ _ ih1 ih2 =>
    obtain ⟨f1, ci, p1, q1⟩ := enterEnds a i ih1
    by_cases hna : (g.blk a).isState = true
    · refine ⟨f1 + 1, .seq (.body b) (.wend c ci a), ?_, ?_⟩
      · intro f hf
        obtain ⟨f, rfl⟩ : ∃ m, f = m + 1 := ⟨f - 1, by omega⟩
        have e1 := p1 f (by omega)
        simp only [emitFrom, ha, hna, if_true, e1]
        simp
      · refine bodyEnds fun s => ?_
        by_cases ht : S.test c (S.exec b s) = true
        · exact ⟨i, ci, by simp [go, ha, ht], q1, fun _ _ => by simp [Code.run, ht]⟩
        · exact ⟨a, .jump a, by simp [go, ha, ht], Ends.jump hna, fun _ _ => by simp [Code.run, ht]⟩
    · have hna' : (g.blk a).isState = false := by simpa using hna
      obtain ⟨f3, ca, p3, q3⟩ := ih2 hna'
      refine ⟨max f1 f3 + 1, .seq (.body b) (.ite c ci ca), ?_, ?_⟩
      · intro f hf
        obtain ⟨f, rfl⟩ : ∃ m, f = m + 1 := ⟨f - 1, by omega⟩
        have e1 := p1 f (by omega)
        have e3 := p3 f (by omega)
        simp only [emitFrom, ha, hna', Bool.false_eq_true, if_false, e1, e3]
        simp
      · refine bodyEnds fun s => ?_
        by_cases ht : S.test c (S.exec b s) = true
        · exact ⟨i, ci, by simp [go, ha, ht], q1, fun _ _ => by simp [Code.run, ht]⟩
        · exact ⟨a, ca, by simp [go, ha, ht], EndsFrom.enter hna' q3,
            fun _ _ => by simp [Code.run, ht]⟩

end Silice
