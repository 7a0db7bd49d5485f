import Verif.Lemmas.FsmEmit
import Verif.Spec.FsmRun
import Verif.Props.FsmNumber
import Verif.Props.FsmSkip

/-! Facts about emitted code and about the worklist that emits the states. -/

set_option autoImplicit false

namespace Silice
variable {B σ : Type}

/-! ### One cycle is deterministic and stays on reached blocks -/

theorem Cycle.det {g : Cfg B} {S : Sem B σ} {b : B} {s s1 s2 : σ} {t1 t2 : List B} {o1 o2 : Out B}
    (h1 : Cycle g S b s t1 s1 o1) (h2 : Cycle g S b s t2 s2 o2) : t1 = t2 ∧ s1 = s2 ∧ o1 = o2 := by
  induction h1 generalizing t2 s2 o2 with
  | out hg =>
    cases h2 with
    | out h => rw [hg] at h; cases h; exact ⟨rfl, rfl, rfl⟩
    | state h _ => rw [hg] at h; cases h
    | more h _ _ => rw [hg] at h; cases h
  | state hg hs =>
    cases h2 with
    | out h => rw [hg] at h; cases h
    | state h _ => rw [hg] at h; cases h; exact ⟨rfl, rfl, rfl⟩
    | more h h' _ => rw [hg] at h; cases h; rw [hs] at h'; cases h'
  | more hg hs _ ih =>
    cases h2 with
    | out h => rw [hg] at h; cases h
    | state h h' => rw [hg] at h; cases h; rw [hs] at h'; cases h'
    | more h h' h3 =>
      rw [hg] at h; cases h
      obtain ⟨a, b, c⟩ := ih h3
      exact ⟨by rw [a], b, c⟩

theorem pickCase_mem {A : Type} {m : Nat → Bool} {es : List (Option Nat × A)} {a : A}
    (h : pickCase m es = some a) : ∃ v, (v, a) ∈ es := by
  unfold pickCase at h
  split at h
  · rename_i e he
    cases h
    exact ⟨e.1, List.mem_of_find?_eq_some he⟩
  · cases he : es.find? (fun e => e.1.isNone) with
    | none => rw [he] at h; cases h
    | some e => rw [he] at h; cases h; exact ⟨e.1, List.mem_of_find?_eq_some he⟩

theorem go_flow {g : Cfg B} {S : Sem B σ} {b n : B} {s : σ} (h : go g S b s = .to n) : n ∈ flow g b := by
  unfold go at h
  unfold flow Cfg.children
  cases ha : (g.blk b).act with
  | stop => rw [ha] at h; cases h
  | goto m => rw [ha] at h; cases h; simp
  | ifElse c i _ _ e _ _ a => rw [ha] at h; simp only [Go.to.injEq] at h; subst h; simp only; split <;> simp
  | switch c cs a =>
    rw [ha] at h
    simp only at h ⊢
    split at h
    · rename_i m hm
      cases h
      obtain ⟨v, hv⟩ := pickCase_mem hm
      exact List.mem_append_left _ (List.mem_map.mpr ⟨_, hv, rfl⟩)
    · cases h; simp
  | loop c i a => rw [ha] at h; simp only [Go.to.injEq] at h; subst h; simp only; split <;> simp
  | wait k w m => rw [ha] at h; simp only [Go.to.injEq] at h; subst h; simp only; split <;> simp
  | ret k => rw [ha] at h; cases h
  | call t r => rw [ha] at h; cases h

theorem flow_children {g : Cfg B} {b n : B} (h : n ∈ flow g b) : n ∈ g.children b := by
  unfold flow at h
  split at h <;> first | exact h | cases h

/-- What the end of a cycle tells about the block it comes from. -/
def OutFrom (g : Cfg B) (ff : B → B) (b : B) : Out B → Prop
  | .jump n => (g.blk n).isState = true ∧ Reached g ff (ff n) ∧
      (SubsWellFormed g ff → (g.blk n).sub = (g.blk b).sub)
  | .halt => True
  | .call c t r => (g.blk c).act = .call t r ∧ Reached g ff c ∧
      (SubsWellFormed g ff → (g.blk c).sub = (g.blk b).sub)
  | .ret c k => (g.blk c).act = .ret k ∧ Reached g ff c ∧
      (SubsWellFormed g ff → (g.blk c).sub = (g.blk b).sub)

theorem Cycle.from {g : Cfg B} {ff : B → B} {S : Sem B σ} {b : B} {s s' : σ} {tr : List B} {o : Out B}
    (h : Cycle g S b s tr s' o) (hb : Reached g ff b) : OutFrom g ff b o := by
  induction h with
  | @out b s o hg =>
    unfold go at hg
    cases ha : (g.blk b).act with
    | stop => rw [ha] at hg; cases hg; trivial
    | goto m => rw [ha] at hg; cases hg
    | ifElse c i _ _ e _ _ a => rw [ha] at hg; cases hg
    | switch c cs a => rw [ha] at hg; simp only at hg; split at hg <;> cases hg
    | loop c i a => rw [ha] at hg; cases hg
    | wait k w m => rw [ha] at hg; cases hg
    | ret k => rw [ha] at hg; cases hg; exact ⟨ha, hb, fun _ => rfl⟩
    | call t r => rw [ha] at hg; cases hg; exact ⟨ha, hb, fun _ => rfl⟩
  | @state b n s hg hs =>
    have := Reached.child hb (flow_children (go_flow hg))
    unfold arrive at this
    rw [if_pos hs] at this
    exact ⟨hs, this, fun w => w.stay b n hb (go_flow hg)⟩
  | @more b n s s' tr o hg hs _ ih =>
    have := Reached.child hb (flow_children (go_flow hg))
    unfold arrive at this
    rw [hs] at this
    have ih := ih this
    have e : SubsWellFormed g ff → (g.blk n).sub = (g.blk b).sub := fun w => w.stay b n hb (go_flow hg)
    cases o with
    | jump m => exact ⟨ih.1, ih.2.1, fun w => (ih.2.2 w).trans (e w)⟩
    | halt => trivial
    | call c t r => exact ⟨ih.1, ih.2.1, fun w => (ih.2.2 w).trans (e w)⟩
    | ret c k => exact ⟨ih.1, ih.2.1, fun w => (ih.2.2 w).trans (e w)⟩

/-! ### The control assignment in force comes from the code -/

/-- The control assignment has its targets among `l`. -/
def OutIn (l : List B) : Option (Out B) → Prop
  | some (.jump b) => b ∈ l
  | some (.call _ t r) => t ∈ l ∧ r ∈ l
  | _ => True

theorem OutIn.mono {l l' : List B} (h : ∀ x ∈ l, x ∈ l') {o : Option (Out B)} (ho : OutIn l o) :
    OutIn l' o := by
  cases o with
  | none => trivial
  | some o =>
    cases o with
    | jump b => exact h _ ho
    | halt => trivial
    | call c t r => exact ⟨h _ ho.1, h _ ho.2⟩
    | ret c k => trivial

mutual
theorem run_ctl (S : Sem B σ) (l : List B) : ∀ (c : Code B) (st : CSt B σ), (∀ x ∈ c.pushes, x ∈ l) →
    OutIn l st.ctl → OutIn l (c.run S st).ctl
  | .skip, st, _, h => by simpa [Code.run] using h
  | .body b, st, _, h => by simpa [Code.run] using h
  | .seq x y, st, hp, h => by
    rw [Code.run]
    exact run_ctl S l y _ (fun z hz => hp z (by simp [Code.pushes, hz]))
      (run_ctl S l x st (fun z hz => hp z (by simp [Code.pushes, hz])) h)
  | .ite t x y, st, hp, h => by
    rw [Code.run]
    split
    · exact run_ctl S l x _ (fun z hz => hp z (by simp [Code.pushes, hz])) h
    · exact run_ctl S l y _ (fun z hz => hp z (by simp [Code.pushes, hz])) h
  | .wend t x b, st, hp, h => by
    rw [Code.run]
    split
    · exact run_ctl S l x _ (fun z hz => hp z (by simp [Code.pushes, hz])) h
    · exact hp b (by simp [Code.pushes])
  | .waitDone t n w, st, hp, h => by
    rw [Code.run]
    by_cases hd : S.done t st.data = true
    · simp only [hd, if_true]; exact hp n (by simp [Code.pushes])
    · simp only [hd]; exact hp w (by simp [Code.pushes])
  | .case t es, st, hp, h => by
    rw [Code.run]
    split
    · rename_i f hf
      obtain ⟨v, hv⟩ := pickCase_mem hf
      exact run_ctl_entries S l es (fun z hz => hp z (by simpa [Code.pushes] using hz)) v f hv st h
    · exact h
  | .jump b, st, hp, _ => hp b (by simp [Code.pushes])
  | .halt, st, _, _ => trivial
  | .call p t r, st, hp, _ => ⟨hp t (by simp [Code.pushes]), hp r (by simp [Code.pushes])⟩
  | .ret p k, st, _, _ => trivial

theorem run_ctl_entries (S : Sem B σ) (l : List B) : ∀ (es : List (Option Nat × Code B)),
    (∀ x ∈ Code.pushes.pushesEntries es, x ∈ l) → ∀ v f, (v, f) ∈ Code.run.runEntries S es →
    ∀ st : CSt B σ, OutIn l st.ctl → OutIn l (f st).ctl
  | [], _, v, f, hf, _, _ => by simp [Code.run.runEntries] at hf
  | (w, x) :: es, hp, v, f, hf, st, h => by
    rw [Code.run.runEntries, List.mem_cons] at hf
    rcases hf with hf | hf
    · cases hf
      exact run_ctl S l x st (fun z hz => hp z (by simp [Code.pushes.pushesEntries, hz])) h
    · exact run_ctl_entries S l es (fun z hz => hp z (by simp [Code.pushes.pushesEntries, hz])) v f hf st h
end

/-! ### Targets of emitted code are reached -/

section
variable [DecidableEq B]

omit [DecidableEq B] in
theorem pushesEntries_mem {es : List (Option Nat × Code B)} {x : B}
    (h : x ∈ Code.pushes.pushesEntries es) : ∃ p ∈ es, x ∈ p.2.pushes := by
  induction es with
  | nil => simp [Code.pushes.pushesEntries] at h
  | cons p es ih =>
    obtain ⟨v, y⟩ := p
    rw [Code.pushes.pushesEntries, List.mem_append] at h
    rcases h with h | h
    · exact ⟨_, List.mem_cons_self, h⟩
    · obtain ⟨p, hp, hx⟩ := ih h
      exact ⟨p, List.mem_cons_of_mem _ hp, hx⟩

omit [DecidableEq B] in
theorem mapM_mem {A C : Type} {f : A → Option C} {l : List A} {r : List C} (h : l.mapM f = some r) :
    ∀ y ∈ r, ∃ x ∈ l, f x = some y := by
  induction l generalizing r with
  | nil => cases h; intro y hy; cases hy
  | cons a l ih =>
    rw [List.mapM_cons] at h
    cases ha : f a with
    | none => simp [ha] at h
    | some c =>
      cases hl : l.mapM f with
      | none => simp [ha, hl] at h
      | some r' =>
        simp [ha, hl] at h
        subst h
        intro y hy
        rcases List.mem_cons.mp hy with rfl | hy
        · exact ⟨a, List.mem_cons_self, ha⟩
        · obtain ⟨x, hx, e⟩ := ih hl y hy
          exact ⟨x, List.mem_cons_of_mem _ hx, e⟩

/-- The states among the targets of the code emitted from a reached block are reached. -/
theorem emit_reached (g : Cfg B) (num : Num B) (ff : B → B)
    (hcall : ∀ b t r, Reached g ff b → (g.blk b).act = .call t r →
      (g.blk r).isState = true → Reached g ff (ff r)) :
    ∀ (fuel : Nat) (st : Option B) (b : B) (code : Code B), Reached g ff b →
      emitFrom g num fuel st b = some code →
      ∀ x ∈ code.pushes, (g.blk x).isState = true → Reached g ff (ff x) := by
  intro fuel
  induction fuel with
  | zero => intro st b code _ h; cases h
  | succ fuel ih =>
    intro st b code hb h
    have child : ∀ n ∈ g.children b, (g.blk n).isState = true → Reached g ff (ff n) := by
      intro n hn hs
      have := Reached.child hb hn
      unfold arrive at this
      rwa [if_pos hs] at this
    have child' : ∀ n ∈ g.children b, (g.blk n).isState ≠ true → Reached g ff n := by
      intro n hn hs
      have := Reached.child hb hn
      unfold arrive at this
      rwa [if_neg hs] at this
    have enter : ∀ (st : Option B) (n : B) (c : Code B), n ∈ g.children b →
        (if (g.blk n).isState then some (Code.jump n) else emitFrom g num fuel st n) = some c →
        ∀ x ∈ c.pushes, (g.blk x).isState = true → Reached g ff (ff x) := by
      intro st n c hn he x hx hs
      split_ifs at he with h1
      · cases he
        simp only [Code.pushes, List.mem_singleton] at hx
        subst hx
        exact child _ hn h1
      · exact ih st n c (child' n hn h1) he x hx hs
    have cont : ∀ (st : Option B) (n : B) (c : Code B), n ∈ g.children b →
        (if (g.blk n).isState then some (Code.jump n) else if st = some n then some .skip
          else emitFrom g num fuel st n) = some c →
        ∀ x ∈ c.pushes, (g.blk x).isState = true → Reached g ff (ff x) := by
      intro st n c hn he x hx hs
      split_ifs at he with h1 h2
      · cases he
        simp only [Code.pushes, List.mem_singleton] at hx
        subst hx
        exact child _ hn h1
      · cases he; simp [Code.pushes] at hx
      · exact ih st n c (child' n hn h1) he x hx hs
    have notstate : ∀ (st : Option B) (n : B) (c : Code B), n ∈ g.children b → (g.blk n).isState ≠ true →
        emitFrom g num fuel st n = some c →
        ∀ x ∈ c.pushes, (g.blk x).isState = true → Reached g ff (ff x) :=
      fun st n c hn h1 he x hx hs => ih st n c (child' n hn h1) he x hx hs
    intro x hx hs
    rw [emitFrom] at h
    cases ha : (g.blk b).act with
    | stop =>
      simp only [ha] at h
      cases h; simp [Code.pushes] at hx
    | goto n =>
      have hn : n ∈ g.children b := by simp [Cfg.children, ha]
      simp only [ha, Option.map_eq_some_iff] at h
      obtain ⟨c, hc, rfl⟩ := h
      simp only [Code.pushes, List.nil_append] at hx
      exact cont st n c hn hc x hx hs
    | ifElse t i _ it e _ et a =>
      have hi : i ∈ g.children b := by simp [Cfg.children, ha]
      have he : e ∈ g.children b := by simp [Cfg.children, ha]
      have haa : a ∈ g.children b := by simp [Cfg.children, ha]
      simp only [ha, Option.bind_eq_some_iff] at h
      obtain ⟨ci, hci, ce, hce, h⟩ := h
      split_ifs at h with h1 h2 h3 h4
      · cases h
        simp only [Code.pushes, List.nil_append, List.mem_append] at hx
        rcases hx with hx | hx
        · exact enter _ i ci hi hci x hx hs
        · exact enter _ e ce he hce x hx hs
      · simp only [Option.map_eq_some_iff] at h
        obtain ⟨ca, hca, rfl⟩ := h
        simp only [Code.pushes, List.nil_append, List.mem_append] at hx
        rcases hx with (hx | hx) | hx
        · exact enter _ i ci hi hci x hx hs
        · exact notstate _ a ca haa h1 hca x hx hs
        · exact enter _ e ce he hce x hx hs
      · simp only [Option.map_eq_some_iff] at h
        obtain ⟨ca, hca, rfl⟩ := h
        simp only [Code.pushes, List.nil_append, List.mem_append] at hx
        rcases hx with hx | hx | hx
        · exact enter _ i ci hi hci x hx hs
        · exact enter _ e ce he hce x hx hs
        · exact notstate _ a ca haa h1 hca x hx hs
      · cases h
        simp only [Code.pushes, List.nil_append, List.mem_append, List.not_mem_nil, or_false] at hx
        rcases hx with hx | hx
        · exact enter _ i ci hi hci x hx hs
        · exact enter _ e ce he hce x hx hs
      · simp only [Option.map_eq_some_iff] at h
        obtain ⟨ca, hca, rfl⟩ := h
        simp only [Code.pushes, List.nil_append, List.mem_append] at hx
        rcases hx with (hx | hx) | hx
        · exact enter _ i ci hi hci x hx hs
        · exact enter _ e ce he hce x hx hs
        · exact notstate _ a ca haa h1 hca x hx hs
    | switch t cs a =>
      have hc : ∀ p ∈ cs, p.2 ∈ g.children b := by
        intro p hp
        simp only [Cfg.children, ha, List.mem_append, List.mem_map]
        exact .inl ⟨p, hp, rfl⟩
      have haa : a ∈ g.children b := by simp [Cfg.children, ha]
      simp only [ha, Option.bind_eq_some_iff] at h
      obtain ⟨es, hes, h⟩ := h
      have hent : x ∈ Code.pushes.pushesEntries es → Reached g ff (ff x) := by
        intro hx
        obtain ⟨p, hp, hx⟩ := pushesEntries_mem hx
        obtain ⟨q, hq, e⟩ := mapM_mem hes p hp
        simp only [Option.map_eq_some_iff] at e
        obtain ⟨y, hy, rfl⟩ := e
        exact enter _ q.2 y (hc q hq) hy x hx hs
      split_ifs at h with h1 h2
      · cases h
        simp only [Code.pushes, List.nil_append] at hx
        exact hent hx
      · cases h
        simp only [Code.pushes, List.nil_append, List.append_nil] at hx
        exact hent hx
      · simp only [Option.map_eq_some_iff] at h
        obtain ⟨ca, hca, rfl⟩ := h
        simp only [Code.pushes, List.nil_append, List.mem_append] at hx
        rcases hx with hx | hx
        · exact hent hx
        · exact notstate _ a ca haa h1 hca x hx hs
    | loop t i a =>
      have hi : i ∈ g.children b := by simp [Cfg.children, ha]
      have haa : a ∈ g.children b := by simp [Cfg.children, ha]
      simp only [ha, Option.bind_eq_some_iff] at h
      obtain ⟨ci, hci, h⟩ := h
      split_ifs at h with h1
      · cases h
        simp only [Code.pushes, List.nil_append, List.mem_append, List.mem_singleton] at hx
        rcases hx with hx | rfl
        · exact enter _ i ci hi hci x hx hs
        · exact child _ haa h1
      · simp only [Option.map_eq_some_iff] at h
        obtain ⟨ca, hca, rfl⟩ := h
        simp only [Code.pushes, List.nil_append, List.mem_append] at hx
        rcases hx with hx | hx
        · exact enter _ i ci hi hci x hx hs
        · exact notstate _ a ca haa h1 hca x hx hs
    | wait k w n =>
      have hw : w ∈ g.children b := by simp [Cfg.children, ha]
      have hn : n ∈ g.children b := by simp [Cfg.children, ha]
      simp only [ha] at h
      cases h
      simp only [Code.pushes, List.nil_append, List.mem_cons, List.not_mem_nil, or_false] at hx
      rcases hx with rfl | rfl
      · exact child _ hn hs
      · exact child _ hw hs
    | ret k =>
      simp only [ha] at h
      cases h; simp [Code.pushes] at hx
    | call t r =>
      have ht : t ∈ g.children b := by simp [Cfg.children, ha]
      simp only [ha] at h
      cases h
      simp only [Code.pushes, List.nil_append, List.mem_cons, List.not_mem_nil, or_false] at hx
      rcases hx with rfl | rfl
      · exact child _ ht hs
      · exact hcall b _ _ hb ha hs

omit [DecidableEq B] in
theorem mapM_mono {A C : Type} {f f' : A → Option C} (hm : ∀ a c, f a = some c → f' a = some c) :
    ∀ {l : List A} {r : List C}, l.mapM f = some r → l.mapM f' = some r := by
  intro l
  induction l with
  | nil => intro r h; exact h
  | cons a l ih =>
    intro r h
    rw [List.mapM_cons] at h ⊢
    cases ha : f a with
    | none => simp [ha] at h
    | some c =>
      cases hl : l.mapM f with
      | none => simp [ha, hl] at h
      | some r' =>
        simp [ha, hl] at h
        simp [hm a c ha, ih hl, h]

/-- More fuel does not change the emitted code. -/
theorem emitFrom_mono (g : Cfg B) (num : Num B) : ∀ (f f' : Nat) (st : Option B) (b : B) (c : Code B),
    emitFrom g num f st b = some c → f ≤ f' → emitFrom g num f' st b = some c := by
  intro f
  induction f with
  | zero => intro f' st b c h; cases h
  | succ f ih =>
    intro f' st b c h hle
    obtain ⟨f', rfl⟩ : ∃ m, f' = m + 1 := ⟨f' - 1, by omega⟩
    have ih' : ∀ st b c, emitFrom g num f st b = some c → emitFrom g num f' st b = some c :=
      fun st b c h => ih f' st b c h (by omega)
    have enter : ∀ (st : Option B) (n : B) (c : Code B),
        (if (g.blk n).isState then some (Code.jump n) else emitFrom g num f st n) = some c →
        (if (g.blk n).isState then some (Code.jump n) else emitFrom g num f' st n) = some c := by
      intro st n c h
      split_ifs at h ⊢
      · exact h
      · exact ih' _ _ _ h
    have cont : ∀ (st : Option B) (n : B) (c : Code B),
        (if (g.blk n).isState then some (Code.jump n) else if st = some n then some .skip
          else emitFrom g num f st n) = some c →
        (if (g.blk n).isState then some (Code.jump n) else if st = some n then some .skip
          else emitFrom g num f' st n) = some c := by
      intro st n c h
      split_ifs at h ⊢
      · exact h
      · exact h
      · exact ih' _ _ _ h
    rw [emitFrom] at h ⊢
    cases ha : (g.blk b).act with
    | stop => simpa only [ha] using h
    | goto n =>
      simp only [ha, Option.map_eq_some_iff] at h ⊢
      obtain ⟨y, hy, e⟩ := h
      exact ⟨y, cont _ _ _ hy, e⟩
    | ifElse t i _ it e _ et a =>
      simp only [ha, Option.bind_eq_some_iff] at h ⊢
      obtain ⟨ci, hci, ce, hce, h⟩ := h
      refine ⟨ci, enter _ _ _ hci, ce, enter _ _ _ hce, ?_⟩
      split_ifs at h ⊢
      · exact h
      · obtain ⟨y, hy, e⟩ := Option.map_eq_some_iff.mp h
        exact Option.map_eq_some_iff.mpr ⟨y, ih' _ _ _ hy, e⟩
      · obtain ⟨y, hy, e⟩ := Option.map_eq_some_iff.mp h
        exact Option.map_eq_some_iff.mpr ⟨y, ih' _ _ _ hy, e⟩
      · exact h
      · obtain ⟨y, hy, e⟩ := Option.map_eq_some_iff.mp h
        exact Option.map_eq_some_iff.mpr ⟨y, ih' _ _ _ hy, e⟩
    | switch t cs a =>
      simp only [ha, Option.bind_eq_some_iff] at h ⊢
      obtain ⟨es, hes, h⟩ := h
      refine ⟨es, mapM_mono ?_ hes, ?_⟩
      · intro p c hp
        obtain ⟨y, hy, e⟩ := Option.map_eq_some_iff.mp hp
        exact Option.map_eq_some_iff.mpr ⟨y, enter _ _ _ hy, e⟩
      · split_ifs at h ⊢
        · exact h
        · exact h
        · obtain ⟨y, hy, e⟩ := Option.map_eq_some_iff.mp h
          exact Option.map_eq_some_iff.mpr ⟨y, ih' _ _ _ hy, e⟩
    | loop t i a =>
      simp only [ha, Option.bind_eq_some_iff] at h ⊢
      obtain ⟨ci, hci, h⟩ := h
      refine ⟨ci, enter _ _ _ hci, ?_⟩
      split_ifs at h ⊢
      · exact h
      · obtain ⟨y, hy, e⟩ := Option.map_eq_some_iff.mp h
        exact Option.map_eq_some_iff.mpr ⟨y, ih' _ _ _ hy, e⟩
    | wait k w n => simpa only [ha] using h
    | ret k => simpa only [ha] using h
    | call t r => simpa only [ha] using h

/-! ### The worklist -/

/-- Invariant of the worklist of states. -/
structure StatesInv (g : Cfg B) (num : Num B) (ff : B → B) (efuel : Nat) (queue : List B)
    (entries : List (Entry B)) : Prop where
  nodup : (entries.map (·.block)).Nodup
  index : ∀ e ∈ entries, num.sid e.block = some e.index
  code : ∀ e ∈ entries, emitFrom g num efuel none e.block = some e.code
  targets : ∀ e ∈ entries, ∀ x ∈ e.code.pushes, (g.blk x).isState = true →
    ff x ∈ entries.map (·.block) ∨ ff x ∈ queue
  first : g.first ∈ entries.map (·.block) ∨ g.first ∈ queue

theorem statesLoop_inv (g : Cfg B) (num : Num B) (ff : B → B) (efuel : Nat) :
    ∀ (fuel : Nat) (queue : List B) (entries out : List (Entry B)),
      StatesInv g num ff efuel queue entries → statesLoop g num ff efuel fuel queue entries = .ok out →
      StatesInv g num ff efuel [] out := by
  intro fuel
  induction fuel with
  | zero =>
    intro queue entries out inv h
    cases queue with
    | nil => rw [statesLoop] at h; cases h; exact inv
    | cons b q => rw [statesLoop] at h; cases h
  | succ fuel ih =>
    intro queue entries out inv h
    cases queue with
    | nil => rw [statesLoop] at h; cases h; exact inv
    | cons b q =>
      rw [statesLoop] at h
      cases hk : num.sid b with
      | none => rw [hk] at h; cases h
      | some k =>
        rw [hk] at h
        simp only at h
        split_ifs at h with hb
        · refine ih _ _ _ ⟨inv.nodup, inv.index, inv.code, ?_, ?_⟩ h
          · intro e he x hx hs
            rcases inv.targets e he x hx hs with h1 | h1
            · exact .inl h1
            · rcases List.mem_cons.mp h1 with h1 | h1
              · rw [h1]; exact .inl hb
              · exact .inr h1
          · rcases inv.first with h1 | h1
            · exact .inl h1
            · rcases List.mem_cons.mp h1 with h1 | h1
              · rw [h1]; exact .inl hb
              · exact .inr h1
        · cases hc : emitFrom g num efuel none b with
          | none => rw [hc] at h; cases h
          | some code =>
            rw [hc] at h
            simp only at h
            refine ih _ _ _ ⟨?_, ?_, ?_, ?_, ?_⟩ h
            · rw [List.map_append, List.nodup_append]
              refine ⟨inv.nodup, by simp, ?_⟩
              rintro x hx y hy rfl
              simp only [List.map_cons, List.map_nil, List.mem_singleton] at hy
              subst hy
              exact hb hx
            · intro e he
              rcases List.mem_append.mp he with he | he
              · exact inv.index e he
              · simp only [List.mem_singleton] at he; subst he; exact hk
            · intro e he
              rcases List.mem_append.mp he with he | he
              · exact inv.code e he
              · simp only [List.mem_singleton] at he; subst he; exact hc
            · intro e he x hx hs
              rcases List.mem_append.mp he with he | he
              · rcases inv.targets e he x hx hs with h1 | h1
                · exact .inl (by simp only [List.map_append, List.mem_append]; exact .inl h1)
                · rcases List.mem_cons.mp h1 with h1 | h1
                  · rw [h1]; exact .inl (by simp)
                  · exact .inr (List.mem_append_left _ h1)
              · simp only [List.mem_singleton] at he; subst he
                exact .inr (List.mem_append_right _ (List.mem_map.mpr
                  ⟨x, List.mem_filter.mpr ⟨hx, hs⟩, rfl⟩))
            · rcases inv.first with h1 | h1
              · exact .inl (by simp only [List.map_append, List.mem_append]; exact .inl h1)
              · rcases List.mem_cons.mp h1 with h1 | h1
                · rw [h1]; exact .inl (by simp)
                · exact .inr (List.mem_append_left _ h1)

theorem emitStates_inv {g : Cfg B} {num : Num B} {ff : B → B} {efuel fuel : Nat}
    {entries : List (Entry B)} (h : emitStates g num ff efuel fuel = .ok entries) :
    StatesInv g num ff efuel [] entries :=
  statesLoop_inv g num ff efuel fuel _ _ _
    ⟨by simp, by simp, by simp, by simp, .inr (by simp)⟩ h

/-- The worklist succeeds: `todo` is what is not yet emitted. -/
theorem statesLoop_total [Fintype B] (g : Cfg B) (num : Num B) (ff : B → B) (efuel : Nat) (P : B → Prop)
    (hsid : ∀ b, P b → ∃ k, num.sid b = some k)
    (hemit : ∀ b, P b → ∃ code, emitFrom g num efuel none b = some code ∧
      ∀ x ∈ code.pushes, (g.blk x).isState = true → P (ff x)) :
    ∀ (n m : Nat) (queue : List B) (entries : List (Entry B)),
      (entries.map (·.block)).Nodup → Fintype.card B - entries.length = n → queue.length = m →
      (∀ b ∈ queue, P b) →
      ∃ fuel out, statesLoop g num ff efuel fuel queue entries = .ok out := by
  intro n
  induction n using Nat.strong_induction_on with
  | _ n ihn =>
    intro m
    induction m with
    | zero =>
      intro queue entries _ _ hm _
      rw [List.length_eq_zero_iff] at hm
      subst hm
      exact ⟨0, entries, by rw [statesLoop]⟩
    | succ m ihm =>
      intro queue entries hnd hn hm hP
      cases queue with
      | nil => cases hm
      | cons b q =>
        obtain ⟨k, hk⟩ := hsid b (hP b List.mem_cons_self)
        by_cases hb : b ∈ entries.map (·.block)
        · obtain ⟨fuel, out, h⟩ := ihm q entries hnd hn (by simpa using hm)
            (fun x hx => hP x (List.mem_cons_of_mem _ hx))
          refine ⟨fuel + 1, out, ?_⟩
          rw [statesLoop, hk]
          simp only
          rw [if_pos hb, h]
        · obtain ⟨code, hc, hp⟩ := hemit b (hP b List.mem_cons_self)
          have hnd' : ((entries ++ [(⟨k, b, code⟩ : Entry B)]).map (fun e : Entry B => e.block)).Nodup := by
            rw [List.map_append, List.nodup_append]
            refine ⟨hnd, by simp, ?_⟩
            rintro x hx y hy rfl
            simp only [List.map_cons, List.map_nil, List.mem_singleton] at hy
            subst hy
            exact hb hx
          have hlen : (entries ++ [(⟨k, b, code⟩ : Entry B)]).length ≤ Fintype.card B := by
            have := List.Nodup.length_le_card hnd'
            simpa using this
          rw [List.length_append, List.length_singleton] at hlen
          obtain ⟨fuel, out, h⟩ := ihn (Fintype.card B - (entries.length + 1)) (by omega) _
            (q ++ (code.pushes.filter fun x => (g.blk x).isState).map ff) (entries ++ [(⟨k, b, code⟩ : Entry B)]) hnd'
            (by simp) rfl (by
              intro x hx
              rcases List.mem_append.mp hx with hx | hx
              · exact hP x (List.mem_cons_of_mem _ hx)
              · obtain ⟨y, hy, rfl⟩ := List.mem_map.mp hx
                exact hp y (List.mem_filter.mp hy).1 (List.mem_filter.mp hy).2)
          refine ⟨fuel + 1, out, ?_⟩
          rw [statesLoop, hk]
          simp only
          rw [if_neg hb, hc]
          simp only
          rw [h]

end

end Silice
