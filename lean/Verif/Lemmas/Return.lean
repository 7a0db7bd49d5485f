import Verif.Model.Return
import Verif.Props.FsmRun

/-! The assignments of the index that are written for `return` are followed by others. -/

set_option autoImplicit false

namespace Silice
variable {B σ : Type}

/-- Whatever path is taken, the code ends with an assignment of the index. -/
inductive Code.Settles : Code B → Prop where
  | seq {x y : Code B} : y.Settles → (Code.seq x y).Settles
  | ite {c : Nat} {x y : Code B} : x.Settles → y.Settles → (Code.ite c x y).Settles
  | wend {c : Nat} {x : Code B} {b : B} : x.Settles → (Code.wend c x b).Settles
  | case {c : Nat} {es : List (Option Nat × Code B)} : (∃ e ∈ es, e.1 = none) → (∀ e ∈ es, Code.Settles e.2) → (Code.case c es).Settles
  | waitDone {k : Nat} {n w : B} : (Code.waitDone k n w).Settles
  | jump {b : B} : (Code.jump b).Settles
  | halt : (Code.halt : Code B).Settles
  | call {p t r : B} : (Code.call p t r).Settles
  | ret {p : B} {k : Nat} : (Code.ret p k).Settles

theorem pickCase_entries (S : Sem B σ) (holds : B → Bool) (m : Nat → Bool) (es : List (Option Nat × Code B)) :
    (pickCase m (Code.run.runEntries S es) = none ∧ pickCase m (Code.run.runEntries S (Code.withReturns.entriesWith holds es)) = none ∧
        pickCase m es = none) ∨
      ∃ e ∈ es, pickCase m (Code.run.runEntries S es) = some (e.2.run S) ∧
        pickCase m (Code.run.runEntries S (Code.withReturns.entriesWith holds es)) = some ((e.2.withReturns holds).run S) := by
  have find : ∀ (q : Option Nat → Bool) (es : List (Option Nat × Code B)),
      ((Code.run.runEntries S es).find? (fun e => q e.1) = none ∧
        (Code.run.runEntries S (Code.withReturns.entriesWith holds es)).find? (fun e => q e.1) = none ∧ es.find? (fun e => q e.1) = none) ∨
      ∃ e ∈ es, (Code.run.runEntries S es).find? (fun e => q e.1) = some (e.1, e.2.run S) ∧
        (Code.run.runEntries S (Code.withReturns.entriesWith holds es)).find? (fun e => q e.1) = some (e.1, (e.2.withReturns holds).run S) ∧
        es.find? (fun e => q e.1) = some e := by
    intro q es
    induction es with
    | nil => exact .inl ⟨rfl, rfl, rfl⟩
    | cons e es ih =>
      obtain ⟨v, x⟩ := e
      by_cases h : q v = true
      · exact .inr ⟨(v, x), List.mem_cons_self, by simp [Code.run.runEntries, h],
          by simp [Code.withReturns.entriesWith, Code.run.runEntries, h], by simp [h]⟩
      · rcases ih with ⟨h1, h2, h3⟩ | ⟨e, he, h1, h2, h3⟩
        · exact .inl ⟨by simp [Code.run.runEntries, h, h1], by simp [Code.withReturns.entriesWith, Code.run.runEntries, h, h2],
            by simp [h, h3]⟩
        · exact .inr ⟨e, List.mem_cons_of_mem _ he, by simp [Code.run.runEntries, h, h1],
            by simp [Code.withReturns.entriesWith, Code.run.runEntries, h, h2], by simp [h, h3]⟩
  unfold pickCase
  rcases find (labelMatches m) es with ⟨h1, h2, h3⟩ | ⟨e, he, h1, h2, h3⟩
  · rcases find (fun v => v.isNone) es with ⟨k1, k2, k3⟩ | ⟨e, he, k1, k2, k3⟩
    · exact .inl ⟨by rw [h1, k1]; rfl, by rw [h2, k2]; rfl, by rw [h3, k3]; rfl⟩
    · exact .inr ⟨e, he, by rw [h1, k1]; rfl, by rw [h2, k2]; rfl⟩
  · exact .inr ⟨e, he, by rw [h1], by rw [h2]⟩

/-- What `return` adds has no effect on the blocks carried out and on data. -/
theorem withReturns_data (S : Sem B σ) (holds : B → Bool) : ∀ (x : Code B) (t : List B) (s : σ) (c c' : Option (Out B)),
    ∃ t' s' d d', x.run S ⟨t, s, c⟩ = ⟨t', s', d⟩ ∧ (x.withReturns holds).run S ⟨t, s, c'⟩ = ⟨t', s', d'⟩
  | .skip, t, s, c, c' => ⟨t, s, c, c', rfl, rfl⟩
  | .body b, t, s, c, c' => by
    by_cases h : holds b = true
    · exact ⟨_, _, _, some .halt, rfl, by simp only [Code.withReturns, h, if_true, Code.run]⟩
    · exact ⟨_, _, _, c', rfl, by simp only [Code.withReturns, h, Bool.false_eq_true, if_false, Code.run]⟩
  | .seq x y, t, s, c, c' => by
    obtain ⟨t1, s1, d1, d1', e1, e2⟩ := withReturns_data S holds x t s c c'
    obtain ⟨t2, s2, d2, d2', e3, e4⟩ := withReturns_data S holds y t1 s1 d1 d1'
    exact ⟨t2, s2, d2, d2', by simp only [Code.run, e1, e3], by simp only [Code.withReturns, Code.run, e2, e4]⟩
  | .ite q x y, t, s, c, c' => by
    by_cases h : S.test q s = true
    · obtain ⟨t1, s1, d1, d1', e1, e2⟩ := withReturns_data S holds x t s c c'
      exact ⟨t1, s1, d1, d1', by simp only [Code.run, h, if_true, e1], by simp only [Code.withReturns, Code.run, h, if_true, e2]⟩
    · obtain ⟨t1, s1, d1, d1', e1, e2⟩ := withReturns_data S holds y t s c c'
      exact ⟨t1, s1, d1, d1', by simp only [Code.run, h, Bool.false_eq_true, if_false, e1],
        by simp only [Code.withReturns, Code.run, h, Bool.false_eq_true, if_false, e2]⟩
  | .wend q x b, t, s, c, c' => by
    by_cases h : S.test q s = true
    · obtain ⟨t1, s1, d1, d1', e1, e2⟩ := withReturns_data S holds x t s c c'
      exact ⟨t1, s1, d1, d1', by simp only [Code.run, h, if_true, e1], by simp only [Code.withReturns, Code.run, h, if_true, e2]⟩
    · exact ⟨t, s, some (.jump b), some (.jump b), by simp only [Code.run, h, Bool.false_eq_true, if_false],
        by simp only [Code.withReturns, Code.run, h, Bool.false_eq_true, if_false]⟩
  | .case q es, t, s, c, c' => by
    rcases pickCase_entries S holds (fun v => S.label q v s) es with ⟨h1, h2, _⟩ | ⟨e, he, h1, h2⟩
    · exact ⟨t, s, c, c', by simp only [Code.run, h1], by simp only [Code.withReturns, Code.run, h2]⟩
    · have hlt : sizeOf e.2 < sizeOf (Code.case q es) := by
        have h1 := List.sizeOf_lt_of_mem he
        have h2 : sizeOf e.2 < sizeOf e := by cases e; simp
        simp
        omega
      obtain ⟨t1, s1, d1, d1', e1, e2⟩ := withReturns_data S holds e.2 t s c c'
      exact ⟨t1, s1, d1, d1', by simp only [Code.run, h1, e1], by simp only [Code.withReturns, Code.run, h2, e2]⟩
  | .waitDone k n w, t, s, c, c' => ⟨t, s, _, _, rfl, rfl⟩
  | .jump b, t, s, c, c' => ⟨t, s, _, _, rfl, rfl⟩
  | .halt, t, s, c, c' => ⟨t, s, _, _, rfl, rfl⟩
  | .call p u r, t, s, c, c' => ⟨t, s, _, _, rfl, rfl⟩
  | .ret p k, t, s, c, c' => ⟨t, s, _, _, rfl, rfl⟩
termination_by x => sizeOf x
decreasing_by all_goals first | (simp_wf; omega) | (simp_wf; done) | exact hlt

/-- Code that ends with an assignment of the index does the same with what `return` adds. -/
theorem Code.Settles.same (S : Sem B σ) (holds : B → Bool) {x : Code B} (h : x.Settles) : ∀ (t : List B) (s : σ) (c c' : Option (Out B)),
    (x.withReturns holds).run S ⟨t, s, c'⟩ = x.run S ⟨t, s, c⟩ := by
  induction h with
  | @seq x y _ ih =>
    intro t s c c'
    obtain ⟨t1, s1, d1, d1', e1, e2⟩ := withReturns_data S holds x t s c c'
    simp only [Code.withReturns, Code.run, e1, e2]
    exact ih t1 s1 d1 d1'
  | @ite q x y _ _ ih1 ih2 =>
    intro t s c c'
    by_cases h : S.test q s = true
    · simp only [Code.withReturns, Code.run, h, if_true]; exact ih1 t s c c'
    · simp only [Code.withReturns, Code.run, h, Bool.false_eq_true, if_false]; exact ih2 t s c c'
  | @wend q x b _ ih =>
    intro t s c c'
    by_cases h : S.test q s = true
    · simp only [Code.withReturns, Code.run, h, if_true]; exact ih t s c c'
    · simp only [Code.withReturns, Code.run, h, Bool.false_eq_true, if_false]
  | @case q es hd _ ih =>
    intro t s c c'
    rcases pickCase_entries S holds (fun v => S.label q v s) es with ⟨_, _, h3⟩ | ⟨e, he, h1, h2⟩
    · exact absurd h3 (pickCase_default _ es hd)
    · simp only [Code.withReturns, Code.run, h1, h2]
      exact ih e he t s c c'
  | waitDone => intro t s c c'; rfl
  | jump => intro t s c c'; rfl
  | halt => intro t s c c'; rfl
  | call => intro t s c c'; rfl
  | ret => intro t s c c'; rfl

theorem pick_run (S : Sem B σ) (m : Nat → Bool) (es : List (Option Nat × Code B)) :
    pickCase m (Code.run.runEntries S es) = none ∨ ∃ e ∈ es, pickCase m (Code.run.runEntries S es) = some (e.2.run S) := by
  rcases pickCase_entries S (fun _ => false) m es with ⟨h, _⟩ | ⟨e, he, h, _⟩
  · exact .inl h
  · exact .inr ⟨e, he, h⟩

theorem size_entry {q : Nat} {es : List (Option Nat × Code B)} {e : Option Nat × Code B} (he : e ∈ es) :
    sizeOf e.2 < sizeOf (Code.case q es) := by
  have h1 := List.sizeOf_lt_of_mem he
  have h2 : sizeOf e.2 < sizeOf e := by cases e; simp
  simp
  omega

/-- An assignment of the index is not undone. -/
theorem ctl_stays (S : Sem B σ) : ∀ (x : Code B) (s : CSt B σ), (x.run S s).ctl = none → s.ctl = none
  | .skip, _, h => h
  | .body _, _, h => h
  | .seq x y, s, h => ctl_stays S x s (ctl_stays S y _ h)
  | .ite q x y, s, h => by
    by_cases ht : S.test q s.data = true
    · rw [Code.run, if_pos ht] at h; exact ctl_stays S x s h
    · rw [Code.run, if_neg ht] at h; exact ctl_stays S y s h
  | .wend q x b, s, h => by
    by_cases ht : S.test q s.data = true
    · rw [Code.run, if_pos ht] at h; exact ctl_stays S x s h
    · rw [Code.run, if_neg ht] at h; cases h
  | .case q es, s, h => by
    rcases pick_run S (fun v => S.label q v s.data) es with h1 | ⟨e, he, h1⟩
    · simp only [Code.run, h1] at h; exact h
    · have hlt := size_entry (q := q) he
      simp only [Code.run, h1] at h
      exact ctl_stays S e.2 s h
  | .waitDone _ _ _, _, h => by cases h
  | .jump _, _, h => by cases h
  | .halt, _, h => by cases h
  | .call _ _ _, _, h => by cases h
  | .ret _ _, _, h => by cases h
termination_by x => sizeOf x
decreasing_by all_goals first | (simp_wf; omega) | (simp_wf; done) | exact hlt

/-- When no assignment of the index is carried out, the one of a `return` holds. -/
theorem unset_returns (S : Sem B σ) (holds : B → Bool) : ∀ (x : Code B) (t : List B) (s : σ) (c : Option (Out B)),
    (x.run S ⟨t, s, none⟩).ctl = none →
    ∃ tr s', x.run S ⟨t, s, none⟩ = ⟨t ++ tr, s', none⟩ ∧
      (x.withReturns holds).run S ⟨t, s, c⟩ = ⟨t ++ tr, s', if tr.any holds then some .halt else c⟩
  | .skip, t, s, c, _ => ⟨[], s, by simp [Code.run], by simp [Code.withReturns, Code.run]⟩
  | .body b, t, s, c, _ => ⟨[b], S.exec b s, rfl, by by_cases h : holds b = true <;> simp [Code.withReturns, Code.run, h]⟩
  | .seq x y, t, s, c, h => by
    have hx : (x.run S ⟨t, s, none⟩).ctl = none := ctl_stays S y _ h
    obtain ⟨tr1, s1, e1, e2⟩ := unset_returns S holds x t s c hx
    simp only [Code.run, e1] at h
    obtain ⟨tr2, s2, e3, e4⟩ := unset_returns S holds y (t ++ tr1) s1 (if tr1.any holds then some .halt else c) h
    refine ⟨tr1 ++ tr2, s2, by simp only [Code.run, e1, e3, List.append_assoc], ?_⟩
    simp only [Code.withReturns, Code.run, e2, e4, List.append_assoc, List.any_append]
    cases tr1.any holds <;> cases tr2.any holds <;> rfl
  | .ite q x y, t, s, c, h => by
    by_cases ht : S.test q s = true
    · simp only [Code.run, ht, if_true] at h
      obtain ⟨tr, s1, e1, e2⟩ := unset_returns S holds x t s c h
      exact ⟨tr, s1, by simp only [Code.run, ht, if_true, e1], by simp only [Code.withReturns, Code.run, ht, if_true, e2]⟩
    · simp only [Code.run, ht, Bool.false_eq_true, if_false] at h
      obtain ⟨tr, s1, e1, e2⟩ := unset_returns S holds y t s c h
      exact ⟨tr, s1, by simp only [Code.run, ht, Bool.false_eq_true, if_false, e1],
        by simp only [Code.withReturns, Code.run, ht, Bool.false_eq_true, if_false, e2]⟩
  | .wend q x b, t, s, c, h => by
    by_cases ht : S.test q s = true
    · simp only [Code.run, ht, if_true] at h
      obtain ⟨tr, s1, e1, e2⟩ := unset_returns S holds x t s c h
      exact ⟨tr, s1, by simp only [Code.run, ht, if_true, e1], by simp only [Code.withReturns, Code.run, ht, if_true, e2]⟩
    · simp only [Code.run, ht, Bool.false_eq_true, if_false] at h
      cases h
  | .case q es, t, s, c, h => by
    rcases pickCase_entries S holds (fun v => S.label q v s) es with ⟨h1, h2, _⟩ | ⟨e, he, h1, h2⟩
    · exact ⟨[], s, by simp [Code.run, h1], by simp [Code.withReturns, Code.run, h2]⟩
    · have hlt := size_entry (q := q) he
      simp only [Code.run, h1] at h
      obtain ⟨tr, s1, e1, e2⟩ := unset_returns S holds e.2 t s c h
      exact ⟨tr, s1, by simp only [Code.run, h1, e1], by simp only [Code.withReturns, Code.run, h2, e2]⟩
  | .waitDone _ _ _, _, _, _, h => by cases h
  | .jump _, _, _, _, h => by cases h
  | .halt, _, _, _, h => by cases h
  | .call _ _ _, _, _, _, h => by cases h
  | .ret _ _, _, _, _, h => by cases h
termination_by x => sizeOf x
decreasing_by all_goals first | (simp_wf; omega) | (simp_wf; done) | exact hlt

theorem mapM_members {A C : Type} (f : A → Option C) : ∀ (l : List A) (m : List C), l.mapM f = some m →
    (∀ y ∈ m, ∃ x ∈ l, f x = some y) ∧ (∀ x ∈ l, ∃ y ∈ m, f x = some y)
  | [], m, h => by
    have h : m = [] := by simpa using h.symm
    subst h
    exact ⟨by simp, by simp⟩
  | a :: l, m, h => by
    rw [List.mapM_cons] at h
    cases h1 : f a with
    | none => rw [h1] at h; cases h
    | some y =>
      cases h2 : l.mapM f with
      | none => rw [h1, h2] at h; cases h
      | some ys =>
        rw [h1, h2] at h
        have h : m = y :: ys := (Option.some.inj h).symm
        subst h
        obtain ⟨k1, k2⟩ := mapM_members f l ys h2
        refine ⟨fun z hz => ?_, fun x hx => ?_⟩
        · rcases List.mem_cons.mp hz with rfl | hz
          · exact ⟨a, List.mem_cons_self, h1⟩
          · obtain ⟨x, hx, e⟩ := k1 z hz
            exact ⟨x, List.mem_cons_of_mem _ hx, e⟩
        · rcases List.mem_cons.mp hx with rfl | hx
          · exact ⟨y, List.mem_cons_self, h1⟩
          · obtain ⟨z, hz, e⟩ := k2 x hx
            exact ⟨z, List.mem_cons_of_mem _ hz, e⟩

variable [DecidableEq B]

/-- The code of a region that ends the cycle ends with an assignment of the index. -/
theorem reg_settles {g : Cfg B} {num : Num B} {st : Option B} {b : B} {k : Bool} (r : Reg g num st b k) :
    ∀ (f : Nat) (code : Code B), emitFrom g num f st b = some code → k = true → code.Settles := by
  have enter : ∀ (f : Nat) (a n : B) (code : Code B),
      (if (g.blk n).isState then some (Code.jump n) else emitFrom g num f (some a) n) = some code →
      ((g.blk n).isState = false → ∀ (f : Nat) (code : Code B), emitFrom g num f (some a) n = some code → true = true → code.Settles) →
      code.Settles := by
    intro f a n code h ih
    by_cases hs : (g.blk n).isState = true
    · rw [if_pos hs] at h; cases h; exact .jump
    · rw [if_neg hs] at h
      exact ih (by simpa using hs) f code h rfl
  have cont : ∀ (f : Nat) (st : Option B) (n : B) (k : Bool) (code : Code B),
      (if (g.blk n).isState then some (Code.jump n) else if st = some n then some .skip else emitFrom g num f st n) = some code →
      (st = some n → k = false) →
      (st ≠ some n → ∀ (f : Nat) (code : Code B), emitFrom g num f st n = some code → k = true → code.Settles) → k = true → code.Settles := by
    intro f st n k code h h1 ih hk
    by_cases hs : (g.blk n).isState = true
    · rw [if_pos hs] at h; cases h; exact .jump
    · rw [if_neg hs] at h
      by_cases e : st = some n
      · rw [h1 e] at hk; cases hk
      · rw [if_neg e] at h; exact ih e f code h hk
  induction r with
  | @stop st b ha =>
    intro f code h _
    cases f with
    | zero => cases h
    | succ f => simp only [emitFrom, ha, Option.some.injEq] at h; subst h; exact .seq .halt
  | @ret st b s ha =>
    intro f code h _
    cases f with
    | zero => cases h
    | succ f => simp only [emitFrom, ha, Option.some.injEq] at h; subst h; exact .seq .ret
  | @call st b t r ha =>
    intro f code h _
    cases f with
    | zero => cases h
    | succ f => simp only [emitFrom, ha, Option.some.injEq] at h; subst h; exact .seq .call
  | @wait st b w n k ha _ _ =>
    intro f code h _
    cases f with
    | zero => cases h
    | succ f => simp only [emitFrom, ha, Option.some.injEq] at h; subst h; exact .seq .waitDone
  | @gotoState st b n ha hn =>
    intro f code h _
    cases f with
    | zero => cases h
    | succ f => simp only [emitFrom, ha, hn, if_true, Option.map_some, Option.some.injEq] at h; subst h; exact .seq .jump
  | gotoStop _ _ => intro f code h hk; cases hk
  | @gotoMore st b n k ha hn hst _ ih =>
    intro f code h hk
    cases f with
    | zero => cases h
    | succ f =>
      simp only [emitFrom, ha, hn, Bool.false_eq_true, if_false, hst, Option.map_eq_some_iff] at h
      obtain ⟨c, hc, rfl⟩ := h
      exact .seq (ih f c hc hk)
  | @ifBoth st b i it e et a c x y k ha hna hpp hi _ he _ hk1 _ ih1 ih2 ih3 =>
    intro f code h hk
    cases f with
    | zero => cases h
    | succ f =>
      simp only [emitFrom, ha, Option.bind_eq_some_iff] at h
      obtain ⟨ci, _, ce, _, h⟩ := h
      rw [if_neg (by rw [hna]; simp)] at h
      have e1 : ((num.pid it).isSome && !(num.pid et).isSome) = false := by rw [hpp]; simp
      have e2 : ((num.pid et).isSome && !(num.pid it).isSome) = false := by rw [hpp]; simp
      rw [e1, e2] at h
      simp only [Bool.false_eq_true, if_false, Option.map_eq_some_iff] at h
      obtain ⟨ca, h, rfl⟩ := h
      exact .seq (cont f st a k ca h hk1 ih3 hk)
  | @ifElseEnds st b i it e et a c x y ha hna hit het hi _ _ _ ih1 ih2 ih3 =>
    intro f code h hk
    cases f with
    | zero => cases h
    | succ f =>
      simp only [emitFrom, ha, Option.bind_eq_some_iff] at h
      obtain ⟨ci, _, ce, hce, h⟩ := h
      rw [if_neg (by rw [hna]; simp), hit, het] at h
      simp only [Bool.not_false, Bool.and_self, if_true, Option.map_eq_some_iff] at h
      obtain ⟨ca, h, rfl⟩ := h
      exact .seq (.ite (.seq (ih3 f ca h rfl)) (enter f a e ce hce ih2))
  | @ifIfEnds st b i it e et a c x y ha hna hit het _ he _ _ ih1 ih2 ih3 =>
    intro f code h hk
    cases f with
    | zero => cases h
    | succ f =>
      simp only [emitFrom, ha, Option.bind_eq_some_iff] at h
      obtain ⟨ci, hci, ce, _, h⟩ := h
      rw [if_neg (by rw [hna]; simp), hit, het] at h
      simp only [Bool.not_true, Bool.and_self, Bool.false_eq_true, if_false, Bool.not_false, if_true, Option.map_eq_some_iff] at h
      obtain ⟨ca, h, rfl⟩ := h
      exact .seq (.ite (enter f a i ci hci ih1) (.seq (ih3 f ca h rfl)))
  | @ifState st b i it e et a c x y ha hna _ _ ih1 ih2 =>
    intro f code h hk
    cases f with
    | zero => cases h
    | succ f =>
      simp only [emitFrom, ha, Option.bind_eq_some_iff] at h
      obtain ⟨ci, hci, ce, hce, h⟩ := h
      rw [if_pos hna] at h
      cases h
      exact .seq (.ite (enter f a i ci hci ih1) (enter f a e ce hce ih2))
  | @switchFall st b a c cs k ha hna hcs _ hk1 _ ih1 ih2 =>
    intro f code h hk
    cases f with
    | zero => cases h
    | succ f =>
      simp only [emitFrom, ha, Option.bind_eq_some_iff] at h
      obtain ⟨es, _, h⟩ := h
      rw [if_neg (by rw [hna]; simp), Option.map_eq_some_iff] at h
      obtain ⟨ca, h, rfl⟩ := h
      exact .seq (cont f st a k ca h hk1 ih2 hk)
  | @switchState st b a c cs ha hna hdef _ ih1 =>
    intro f code h hk
    cases f with
    | zero => cases h
    | succ f =>
      simp only [emitFrom, ha, Option.bind_eq_some_iff] at h
      obtain ⟨es, hes, h⟩ := h
      rw [if_pos hna] at h
      cases h
      obtain ⟨m1, m2⟩ := mapM_members _ cs es hes
      refine .seq (.case ?_ fun e he => ?_)
      · obtain ⟨p, hp, hn⟩ := hdef
        obtain ⟨y, hy, e⟩ := m2 p hp
        rw [Option.map_eq_some_iff] at e
        obtain ⟨_, _, rfl⟩ := e
        exact ⟨_, hy, hn⟩
      · obtain ⟨p, hp, e'⟩ := m1 e he
        rw [Option.map_eq_some_iff] at e'
        obtain ⟨x, hx, rfl⟩ := e'
        exact enter f a p.2 x hx (ih1 p hp)
  | @loop st b i a c ha _ _ ih1 ih2 =>
    intro f code h hk
    cases f with
    | zero => cases h
    | succ f =>
      simp only [emitFrom, ha, Option.bind_eq_some_iff] at h
      obtain ⟨ci, hci, h⟩ := h
      by_cases hna : (g.blk a).isState = true
      · rw [if_pos hna] at h
        cases h
        exact .seq (.wend (enter f a i ci hci ih1))
      · rw [if_neg hna, Option.map_eq_some_iff] at h
        obtain ⟨ca, h, rfl⟩ := h
        exact .seq (.ite (enter f a i ci hci ih1) (ih2 (by simpa using hna) f ca h rfl))

/-- The code of all states ends with an assignment of the index. -/
theorem entries_settle {g : Cfg B} {fsm : Nat} {ff : B → B} {num : Num B} {maxState : Nat} {blocks : List B} {entries : List (Entry B)}
    (m : Machine g fsm ff num maxState blocks entries) : ∀ e ∈ entries, e.code.Settles := by
  intro e he
  obtain ⟨ef, fu, h⟩ := m.states
  have inv := emitStates_inv h
  have h3 := (m.numbers.states e.block).mp ⟨_, inv.index e he⟩
  exact reg_settles (m.wf.region e.block h3.1 h3.2.1) ef e.code (inv.code e he) rfl

/-- So `return` has no effect in a cycle. -/
theorem hwCycle_returns {g : Cfg B} {num : Num B} {ff : B → B} {ids : List (B × Nat)} {entries : List (Entry B)}
    (hs : ∀ e ∈ entries, e.code.Settles) (holds : B → Bool) (S : Sem B σ) (env : σ → σ) (h : HW σ) :
    hwCycle g num ff ids (entriesWithReturns holds entries) S env h = hwCycle g num ff ids entries S env h := by
  unfold hwCycle
  by_cases h0 : h.idx = 0
  · rw [if_pos h0, if_pos h0]
  · rw [if_neg h0, if_neg h0]
    unfold entriesWithReturns
    rw [List.find?_map]
    have e : ((fun e : Entry B => decide (e.index = h.idx)) ∘ fun e : Entry B => { e with code := e.code.withReturns holds }) =
        fun e => decide (e.index = h.idx) := rfl
    rw [e]
    cases hf : entries.find? (fun e => decide (e.index = h.idx)) with
    | none => rfl
    | some e =>
      simp only [Option.map_some]
      rw [(hs e (List.mem_of_find?_eq_some hf)).same S holds [] h.data none none]

/-- And in any number of cycles. -/
theorem hwRun_returns {g : Cfg B} {num : Num B} {ff : B → B} {ids : List (B × Nat)} {entries : List (Entry B)}
    (hs : ∀ e ∈ entries, e.code.Settles) (holds : B → Bool) (S : Sem B σ) (env : Nat → σ → σ) (h0 : HW σ) (n : Nat) :
    hwRun g num ff ids (entriesWithReturns holds entries) S env h0 n = hwRun g num ff ids entries S env h0 n := by
  induction n with
  | zero => rfl
  | succ n ih =>
    simp only [hwRun, ih]
    congr 1
    funext p
    rw [hwCycle_returns hs]

end Silice
