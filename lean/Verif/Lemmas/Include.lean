import Verif.Prelude
import Verif.Spec.Include
set_option autoImplicit false
namespace Silice

theorem findFile1_exists {fs : FileSys} {p f : String} (h : (fs.content f).isSome) : findFile1 fs p f = f := by
  simp [findFile1, h]

theorem foldl_exists {fs : FileSys} (E : List String) {f : String} (h : (fs.content f).isSome) :
    E.foldl (fun f p => findFile1 fs p f) f = f := by
  induction E with
  | nil => rfl
  | cons p E ih => simp only [List.foldl_cons, findFile1_exists h, ih]

/-- A name that resolves to an existing file resolves to the same file when search paths are added. -/
theorem resolve_stable {fs : FileSys} {P R : List String} {path n : String} (hp : P <+: R)
    (h : (fs.content (resolveInc fs P path n)).isSome) : resolveInc fs R path n = resolveInc fs P path n := by
  obtain ⟨E, rfl⟩ := hp
  unfold resolveInc at *
  rw [List.foldl_append, foldl_exists E h]

theorem expands_prefix {fs f l P is o P' n} (h : Expands fs f l P is o P' n) : P <+: P' := by
  induction h with
  | nil => exact List.prefix_rfl
  | text _ ih => exact ih
  | eol _ ih => exact ih
  | inc _ _ _ _ ih1 ih2 => exact ((List.prefix_append _ _).trans ih1).trans ih2

theorem reach_prefix {fs f P is X Q} (h : Reach fs f P is X Q) : P <+: Q := by
  induction h with
  | text _ ih => exact ih
  | eol _ ih => exact ih
  | here _ _ => exact List.prefix_append _ _
  | into _ _ _ ih => exact (List.prefix_append _ _).trans ih
  | skip _ _ h _ ih => exact ((List.prefix_append _ _).trans (expands_prefix h)).trans ih

/-- Processing again with more search paths goes through the same files. -/
theorem replay {fs f P is X Q} (h : Reach fs f P is X Q) : ∀ {l R o R' t}, Q <+: R → Expands fs f l R is o R' t →
    ∃ R1 c o1 R1' t1, R <+: R1 ∧ fs.content X = some c ∧ Expands fs X 0 R1 c o1 R1' t1 ∧ t1 < t := by
  induction h with
  | text _ ih => intro l R o R' t hq he; cases he with | text he => exact ih hq he
  | eol _ ih => intro l R o R' t hq he; cases he with | eol he => exact ih hq he
  | @here f P n is g hr hs =>
    intro l R o R' t hq he
    cases he with
    | @inc _ _ _ _ _ g' c o P1 n o' P2 n' hr' hc h1 h2 =>
      have hp : P <+: R := (List.prefix_append _ _).trans hq
      have hs' := resolve_stable hp (path := fs.pathOf f) (n := _) (by rw [hr]; exact hs)
      rw [hr'] at hs'
      rw [hr] at hs'
      subst hs'
      exact ⟨_, c, _, _, _, List.prefix_append _ _, hc, h1, by omega⟩
  | @into f P n is g c X Q hr hc hreach ih =>
    intro l R o R' t hq he
    cases he with
    | @inc _ _ _ _ _ g' c' o P1 n o' P2 n' hr' hc' h1 h2 =>
      have hp : P <+: R := ((List.prefix_append _ _).trans (reach_prefix hreach)).trans hq
      have hs' := resolve_stable hp (path := fs.pathOf f) (n := _) (by rw [hr, hc]; rfl)
      rw [hr', hr] at hs'
      subst hs'
      rw [hc] at hc'
      cases hc'
      obtain ⟨R1, c1, o1, R1', t1, a, b, d, e⟩ := ih (hq.trans (List.prefix_append _ _)) h1
      exact ⟨R1, c1, o1, R1', t1, (List.prefix_append _ _).trans a, b, d, by omega⟩
  | @skip f P n is g c o P1 k X Q hr hc hexp hreach ih =>
    intro l R o R' t hq he
    cases he with
    | @inc _ _ _ _ _ g' c' o P1 n o' P2 n' hr' hc' h1 h2 =>
      have hp1 := expands_prefix h1
      obtain ⟨R1, c1, o1, R1', t1, a, b, d, e⟩ := ih ((hq.trans (List.prefix_append _ _)).trans hp1) h2
      exact ⟨R1, c1, o1, R1', t1, ((List.prefix_append _ _).trans hp1).trans a, b, d, by omega⟩

/-- A file reached from itself has no expansion from there on. -/
theorem no_expansion_of_cycle {fs : FileSys} {g : String} {P Q : List String} {c : List SrcItem} (hc : fs.content g = some c)
    (hr : Reach fs g P c g Q) : ∀ (s : Nat) {R o R'}, Q <+: R → ¬ Expands fs g 0 R c o R' s := by
  intro s
  induction s using Nat.strongRecOn with
  | ind s ih =>
    intro R o R' hq he
    obtain ⟨R1, c1, o1, R1', t1, a, b, d, e⟩ := replay hr hq he
    rw [hc] at b
    cases b
    exact ih t1 e (hq.trans a) d

/-- Files being processed, together with what is reached from them. -/
def AncInv (fs : FileSys) (A : List String) (f : String) (P : List String) (is : List SrcItem) : Prop :=
  ∀ g ∈ A, ∃ Pg cg, fs.content g = some cg ∧ ∀ X Q, Reach fs f P is X Q → Reach fs g Pg cg X Q

theorem follow {fs f l P is o P' n} (h : Expands fs f l P is o P' n) : ∀ (A : List String) (k fid : Nat) (st : Asm),
    st.paths = P → n ≤ k → AncInv fs A f P is →
    ∃ st', asmLoop fs (assembleSource fs k A) f fid l is st = some (.ok (o.map ATok.erase, st')) ∧ st'.paths = P' := by
  induction h with
  | nil => intro A k fid st hp _ _; exact ⟨st, by simp [asmLoop], hp⟩
  | text h ih =>
    intro A k fid st hp hk hA
    obtain ⟨st', h1, h2⟩ := ih A k fid st hp hk (by
      intro g hg
      obtain ⟨Pg, cg, hcg, hr⟩ := hA g hg
      exact ⟨Pg, cg, hcg, fun X Q hx => hr X Q (.text hx)⟩)
    exact ⟨st', by simp [asmLoop, h1, ATok.erase], h2⟩
  | @eol f l P is o P' n h ih =>
    intro A k fid st hp hk hA
    obtain ⟨st', h1, h2⟩ := ih A k fid { st with remap := st.remap ++ [(st.lines, fid, l)], lines := st.lines + 1 } hp hk (by
      intro g hg
      obtain ⟨Pg, cg, hcg, hr⟩ := hA g hg
      exact ⟨Pg, cg, hcg, fun X Q hx => hr X Q (.eol hx)⟩)
    exact ⟨st', by simp [asmLoop, h1, ATok.erase], h2⟩
  | @inc f l P name is g c o P1 n o' P2 n' hr hc h1 h2 ih1 ih2 =>
    intro A k fid st hp hk hA
    obtain ⟨k', rfl⟩ : ∃ k', k = k' + 1 := ⟨k - 1, by omega⟩
    have hnot : g ∉ A := by
      intro hg
      obtain ⟨Pg, cg, hcg, hreach⟩ := hA g hg
      have hh := hreach g _ (.here hr (by rw [hc]; rfl))
      rw [hc] at hcg
      cases hcg
      exact no_expansion_of_cycle hc hh n List.prefix_rfl h1
    obtain ⟨st1, e1, p1⟩ := ih1 (g :: A) k' st.files.length
      { st with paths := st.paths ++ [fs.pathOf g], files := st.files ++ [g] } (by simp [hp]) (by omega) (by
        intro x hx
        rcases List.mem_cons.mp hx with rfl | hx
        · exact ⟨_, c, hc, fun X Q h => h⟩
        · obtain ⟨Pg, cg, hcg, hreach⟩ := hA x hx
          exact ⟨Pg, cg, hcg, fun X Q h => hreach X Q (.into hr hc h)⟩)
    obtain ⟨st2, e2, p2⟩ := ih2 A (k' + 1) fid st1 p1 (by omega) (by
      intro x hx
      obtain ⟨Pg, cg, hcg, hreach⟩ := hA x hx
      exact ⟨Pg, cg, hcg, fun X Q h => hreach X Q (.skip hr hc h1 h)⟩)
    refine ⟨st2, ?_, p2⟩
    have e3 : assembleSource fs (k' + 1) A (resolveInc fs st.paths (fs.pathOf f) name) st =
        some (.ok (o.map ATok.erase, st1)) := by
      rw [hp, hr]
      simp only [assembleSource, hc]
      rw [if_neg hnot, e1]
    simp only [asmLoop, e3, e2, List.map_append]

/-! ### Soundness -/

/-- Relation between states: lines added for the origins `L`. -/
structure Added (st st' : Asm) (L : List (String × Nat)) : Prop where
  files : st.files <+: st'.files
  lines : st'.lines = st.lines + L.length
  remap : ∃ es, st'.remap = st.remap ++ es ∧ es.length = L.length ∧
    ∀ i (f : String) (l : Nat), L[i]? = some (f, l) → ∃ id, es[i]? = some (st.lines + i, id, l) ∧ st'.files[id]? = some f

theorem Added.refl (st : Asm) : Added st st [] :=
  ⟨List.prefix_rfl, by simp, [], by simp, rfl, by simp⟩

theorem prefix_getElem? {l l' : List String} (h : l <+: l') {i : Nat} {x : String} (hx : l[i]? = some x) : l'[i]? = some x := by
  obtain ⟨r, rfl⟩ := h
  have : i < l.length := by
    rcases Nat.lt_or_ge i l.length with h | h
    · exact h
    · rw [List.getElem?_eq_none h] at hx; simp at hx
  rw [List.getElem?_append_left this, hx]

theorem Added.trans {a b c : Asm} {L M : List (String × Nat)} (h1 : Added a b L) (h2 : Added b c M) : Added a c (L ++ M) := by
  obtain ⟨e1, r1, l1, g1⟩ := h1.remap
  obtain ⟨e2, r2, l2, g2⟩ := h2.remap
  refine ⟨h1.files.trans h2.files, by rw [h2.lines, h1.lines]; simp; omega, e1 ++ e2, by rw [r2, r1]; simp, by simp [l1, l2], ?_⟩
  intro i f l hi
  rcases Nat.lt_or_ge i L.length with h | h
  · rw [List.getElem?_append_left h] at hi
    obtain ⟨id, h3, h4⟩ := g1 i f l hi
    exact ⟨id, by rw [List.getElem?_append_left (by omega), h3], prefix_getElem? h2.files h4⟩
  · rw [List.getElem?_append_right h] at hi
    obtain ⟨id, h3, h4⟩ := g2 _ f l hi
    refine ⟨id, ?_, h4⟩
    rw [List.getElem?_append_right (by omega), l1, h3, h1.lines]
    congr 2
    omega

theorem Added.step {st st' : Asm} {L : List (String × Nat)} {fid l : Nat} {f : String} (hf : st.files[fid]? = some f)
    (h : Added { st with remap := st.remap ++ [(st.lines, fid, l)], lines := st.lines + 1 } st' L) :
    Added st st' ((f, l) :: L) := by
  have h0 : Added st { st with remap := st.remap ++ [(st.lines, fid, l)], lines := st.lines + 1 } [(f, l)] := by
    refine ⟨List.prefix_rfl, rfl, [(st.lines, fid, l)], rfl, rfl, ?_⟩
    intro i f' l' hi
    cases i with
    | zero => simp at hi; obtain ⟨rfl, rfl⟩ := hi; exact ⟨fid, by simp, hf⟩
    | succ i => simp at hi
  exact h0.trans h

def origins (o : List ATok) : List (String × Nat) := o.filterMap ATok.origin

theorem loop_sound {fs : FileSys} {recur : String → Asm → AsmRes} {f : String} {fid : Nat}
    (hrec : ∀ g st o st', recur g st = some (.ok (o, st')) → ∃ c a n, fs.content g = some c ∧
      Expands fs g 0 (st.paths ++ [fs.pathOf g]) c a st'.paths n ∧ o = a.map ATok.erase ∧ Added st st' (origins a)) :
    ∀ (is : List SrcItem) (l : Nat) (st : Asm) (o : List Tok) (st' : Asm), st.files[fid]? = some f →
      asmLoop fs recur f fid l is st = some (.ok (o, st')) →
      ∃ a n, Expands fs f l st.paths is a st'.paths n ∧ o = a.map ATok.erase ∧ Added st st' (origins a) := by
  intro is
  induction is with
  | nil =>
    intro l st o st' hf h
    simp only [asmLoop, Option.some.injEq, Except.ok.injEq, Prod.mk.injEq] at h
    obtain ⟨rfl, rfl⟩ := h
    exact ⟨[], 0, .nil, rfl, Added.refl _⟩
  | cons x is ih =>
    intro l st o st' hf h
    cases x with
    | text w =>
      simp only [asmLoop] at h
      cases hx : asmLoop fs recur f fid l is st with
      | none => rw [hx] at h; simp at h
      | some r =>
        cases r with
        | error e => rw [hx] at h; simp at h
        | ok r =>
          obtain ⟨o1, st1⟩ := r
          rw [hx] at h
          simp only [Option.some.injEq, Except.ok.injEq, Prod.mk.injEq] at h
          obtain ⟨rfl, rfl⟩ := h
          obtain ⟨a, n, h1, rfl, h3⟩ := ih l st o1 st1 hf hx
          exact ⟨.text w :: a, n, .text h1, rfl, h3⟩
    | eol =>
      simp only [asmLoop] at h
      cases hx : asmLoop fs recur f fid (l + 1) is { st with remap := st.remap ++ [(st.lines, fid, l)], lines := st.lines + 1 } with
      | none => rw [hx] at h; simp at h
      | some r =>
        cases r with
        | error e => rw [hx] at h; simp at h
        | ok r =>
          obtain ⟨o1, st1⟩ := r
          rw [hx] at h
          simp only [Option.some.injEq, Except.ok.injEq, Prod.mk.injEq] at h
          obtain ⟨rfl, rfl⟩ := h
          obtain ⟨a, n, h1, rfl, h3⟩ := ih (l + 1) _ o1 st1 (by exact hf) hx
          exact ⟨.eol f l :: a, n, .eol h1, rfl, by simpa [origins, ATok.origin] using h3.step hf⟩
    | bad => simp [asmLoop] at h
    | inc n =>
      simp only [asmLoop] at h
      cases hx : recur (resolveInc fs st.paths (fs.pathOf f) n) st with
      | none => rw [hx] at h; simp at h
      | some r =>
        cases r with
        | error e => rw [hx] at h; simp at h
        | ok r =>
          obtain ⟨o1, st1⟩ := r
          rw [hx] at h
          simp only at h
          cases hy : asmLoop fs recur f fid l is st1 with
          | none => rw [hy] at h; simp at h
          | some r =>
            cases r with
            | error e => rw [hy] at h; simp at h
            | ok r =>
              obtain ⟨o2, st2⟩ := r
              rw [hy] at h
              simp only [Option.some.injEq, Except.ok.injEq, Prod.mk.injEq] at h
              obtain ⟨rfl, rfl⟩ := h
              obtain ⟨c, a1, n1, hc, h1, rfl, g1⟩ := hrec _ _ _ _ hx
              obtain ⟨a2, n2, h2, rfl, g2⟩ := ih l st1 o2 st2 (prefix_getElem? g1.files hf) hy
              exact ⟨a1 ++ a2, n1 + n2 + 1, .inc rfl hc h1 h2, by simp, by
                simpa [origins] using g1.trans g2⟩

theorem assemble_sound (fs : FileSys) : ∀ (k : Nat) (A : List String) (g : String) (st : Asm) (o : List Tok) (st' : Asm),
    assembleSource fs k A g st = some (.ok (o, st')) → ∃ c a n, fs.content g = some c ∧
      Expands fs g 0 (st.paths ++ [fs.pathOf g]) c a st'.paths n ∧ o = a.map ATok.erase ∧ Added st st' (origins a) := by
  intro k
  induction k with
  | zero => intro A g st o st' h; simp [assembleSource] at h
  | succ k ih =>
    intro A g st o st' h
    simp only [assembleSource] at h
    cases hc : fs.content g with
    | none => rw [hc] at h; simp at h
    | some c =>
      rw [hc] at h
      simp only at h
      split at h
      · simp at h
      · obtain ⟨a, n, h1, h2, h3⟩ := loop_sound (fs := fs) (f := g) (ih (g :: A)) c 0 _ o st' (by simp) h
        refine ⟨c, a, n, rfl, h1, h2, ?_⟩
        obtain ⟨es, r1, r2, r3⟩ := h3.remap
        exact ⟨(List.prefix_append _ _).trans h3.files, h3.lines, es, r1, r2, r3⟩

/-! ### More fuel changes nothing -/

theorem loop_mono {fs : FileSys} {r1 r2 : String → Asm → AsmRes} {f : String} {fid : Nat}
    (h : ∀ g st x, r1 g st = some x → r2 g st = some x) : ∀ (is : List SrcItem) (l : Nat) (st : Asm) x,
    asmLoop fs r1 f fid l is st = some x → asmLoop fs r2 f fid l is st = some x := by
  intro is
  induction is with
  | nil => intro l st x hx; exact hx
  | cons a is ih =>
    intro l st x hx
    cases a with
    | text w =>
      simp only [asmLoop] at hx ⊢
      cases hy : asmLoop fs r1 f fid l is st with
      | none => rw [hy] at hx; simp at hx
      | some y => rw [ih _ _ _ hy]; rw [hy] at hx; exact hx
    | eol =>
      simp only [asmLoop] at hx ⊢
      cases hy : asmLoop fs r1 f fid (l + 1) is { st with remap := st.remap ++ [(st.lines, fid, l)], lines := st.lines + 1 } with
      | none => rw [hy] at hx; simp at hx
      | some y => rw [ih _ _ _ hy]; rw [hy] at hx; exact hx
    | bad => exact hx
    | inc n =>
      simp only [asmLoop] at hx ⊢
      cases hy : r1 (resolveInc fs st.paths (fs.pathOf f) n) st with
      | none => rw [hy] at hx; simp at hx
      | some y =>
        rw [h _ _ _ hy]
        rw [hy] at hx
        cases y with
        | error e => exact hx
        | ok y =>
          obtain ⟨o, st1⟩ := y
          simp only at hx ⊢
          cases hz : asmLoop fs r1 f fid l is st1 with
          | none => rw [hz] at hx; simp at hx
          | some z => rw [ih _ _ _ hz]; rw [hz] at hx; exact hx

theorem assemble_mono (fs : FileSys) : ∀ (k : Nat) (A : List String) (g : String) (st : Asm) x,
    assembleSource fs k A g st = some x → ∀ k', k ≤ k' → assembleSource fs k' A g st = some x := by
  intro k
  induction k with
  | zero => intro A g st x h; simp [assembleSource] at h
  | succ k ih =>
    intro A g st x h k' hk
    obtain ⟨k', rfl⟩ : ∃ j, k' = j + 1 := ⟨k' - 1, by omega⟩
    simp only [assembleSource] at h ⊢
    cases hc : fs.content g with
    | none => rw [hc] at h; exact h
    | some c =>
      rw [hc] at h
      simp only at h ⊢
      split
      · rename_i hm; rw [if_pos hm] at h; exact h
      · rename_i hm
        rw [if_neg hm] at h
        exact loop_mono (fun g st x hx => ih _ g st x hx k' (by omega)) _ _ _ _ h

/-! ### Enough fuel for finitely many files -/

theorem loop_total {fs : FileSys} {recur : String → Asm → AsmRes} {f : String} {fid : Nat}
    (h : ∀ g st, recur g st ≠ none) : ∀ (is : List SrcItem) (l : Nat) (st : Asm), asmLoop fs recur f fid l is st ≠ none := by
  intro is
  induction is with
  | nil => intro l st; simp [asmLoop]
  | cons a is ih =>
    intro l st
    cases a with
    | text w =>
      simp only [asmLoop]
      have := ih l st
      cases hy : asmLoop fs recur f fid l is st with
      | none => exact absurd hy this
      | some y => cases y <;> simp
    | eol =>
      simp only [asmLoop]
      have := ih (l + 1) { st with remap := st.remap ++ [(st.lines, fid, l)], lines := st.lines + 1 }
      cases hy : asmLoop fs recur f fid (l + 1) is { st with remap := st.remap ++ [(st.lines, fid, l)], lines := st.lines + 1 } with
      | none => exact absurd hy this
      | some y => cases y <;> simp
    | bad => simp [asmLoop]
    | inc n =>
      simp only [asmLoop]
      cases hx : recur (resolveInc fs st.paths (fs.pathOf f) n) st with
      | none => exact absurd hx (h _ _)
      | some x =>
        cases x with
        | error e => simp
        | ok x =>
          obtain ⟨o, st1⟩ := x
          simp only
          have := ih l st1
          cases hy : asmLoop fs recur f fid l is st1 with
          | none => exact absurd hy this
          | some y => cases y <;> simp

theorem filter_lt {L A : List String} {f : String} (h1 : f ∈ L) (h2 : f ∉ A) :
    (L.filter (fun x => x ∉ f :: A)).length < (L.filter (fun x => x ∉ A)).length := by
  have hsub : ∀ M : List String, (M.filter (fun x => x ∉ f :: A)).length ≤ (M.filter (fun x => x ∉ A)).length := by
    intro M
    induction M with
    | nil => simp
    | cons y M ih =>
      simp only [List.filter_cons]
      split <;> split <;> (simp_all; try omega)
  induction L with
  | nil => simp at h1
  | cons y L ih =>
    by_cases hy : y = f
    · subst hy
      have := hsub L
      simp only [List.filter_cons]
      simp [h2]
      simp at this
      omega
    · have := ih (by simpa [Ne.symm hy] using h1)
      simp only [List.filter_cons]
      by_cases hyA : y ∈ A
      · simp [hyA]; simpa using this
      · simp [hyA, hy]; simpa using this

theorem assemble_total (fs : FileSys) (L : List String) (hL : ∀ f, (fs.content f).isSome → f ∈ L) :
    ∀ (k : Nat) (A : List String) (g : String) (st : Asm), (L.filter (fun x => x ∉ A)).length < k →
      assembleSource fs k A g st ≠ none := by
  intro k
  induction k with
  | zero => intro A g st h; omega
  | succ k ih =>
    intro A g st h
    simp only [assembleSource]
    cases hc : fs.content g with
    | none => simp
    | some c =>
      simp only
      split
      · simp
      · rename_i hm
        have := filter_lt (hL g (by rw [hc]; rfl)) hm
        exact loop_total (fun g' st' => ih (g :: A) g' st' (by omega)) _ _ _

/-! ### Errors -/

theorem loop_error {fs : FileSys} {recur : String → Asm → AsmRes} {f : String} {fid : Nat} {Q : AsmErr → Prop}
    (h : ∀ g st e, recur g st = some (.error e) → Q e) (hp : Q .parse) : ∀ (is : List SrcItem) (l : Nat) (st : Asm) e,
    asmLoop fs recur f fid l is st = some (.error e) → Q e := by
  intro is
  induction is with
  | nil => intro l st e hx; simp [asmLoop] at hx
  | cons a is ih =>
    intro l st e hx
    cases a with
    | text w =>
      simp only [asmLoop] at hx
      cases hy : asmLoop fs recur f fid l is st with
      | none => rw [hy] at hx; simp at hx
      | some y =>
        rw [hy] at hx
        cases y with
        | error e' => simp at hx; subst hx; exact ih _ _ _ hy
        | ok y => simp at hx
    | eol =>
      simp only [asmLoop] at hx
      cases hy : asmLoop fs recur f fid (l + 1) is { st with remap := st.remap ++ [(st.lines, fid, l)], lines := st.lines + 1 } with
      | none => rw [hy] at hx; simp at hx
      | some y =>
        rw [hy] at hx
        cases y with
        | error e' => simp at hx; subst hx; exact ih _ _ _ hy
        | ok y => simp at hx
    | bad => simp [asmLoop] at hx; subst hx; exact hp
    | inc n =>
      simp only [asmLoop] at hx
      cases hy : recur (resolveInc fs st.paths (fs.pathOf f) n) st with
      | none => rw [hy] at hx; simp at hx
      | some y =>
        rw [hy] at hx
        cases y with
        | error e' => simp at hx; subst hx; exact h _ _ _ hy
        | ok y =>
          obtain ⟨o, st1⟩ := y
          simp only at hx
          cases hz : asmLoop fs recur f fid l is st1 with
          | none => rw [hz] at hx; simp at hx
          | some z =>
            rw [hz] at hx
            cases z with
            | error e' => simp at hx; subst hx; exact ih _ _ _ hz
            | ok z => simp at hx

theorem assemble_error (fs : FileSys) : ∀ (k : Nat) (A : List String) (g : String) (st : Asm) (e : AsmErr),
    assembleSource fs k A g st = some (.error e) →
      (∀ f, e = .missing f → fs.content f = none) ∧ (∀ f, e = .cyclic f → (fs.content f).isSome) := by
  intro k
  induction k with
  | zero => intro A g st e h; simp [assembleSource] at h
  | succ k ih =>
    intro A g st e h
    simp only [assembleSource] at h
    cases hc : fs.content g with
    | none =>
      rw [hc] at h; simp at h; subst h
      exact ⟨fun f hf => by cases hf; exact hc, by simp⟩
    | some c =>
      rw [hc] at h
      simp only at h
      split at h
      · simp at h; subst h
        exact ⟨by simp, fun f hf => by cases hf; rw [hc]; rfl⟩
      · exact loop_error (Q := fun e => (∀ f, e = .missing f → fs.content f = none) ∧ (∀ f, e = .cyclic f → (fs.content f).isSome))
          (ih (g :: A)) (by simp) _ _ _ _ h

/-- What is known of the files being processed when `g` is about to be entered. -/
def EnterInv (fs : FileSys) (A : List String) (g : String) (P : List String) : Prop :=
  ∀ x ∈ A, ∃ Px cx, fs.content x = some cx ∧ ((fs.content g).isSome → Reach fs x Px cx g (P ++ [fs.pathOf g])) ∧
    ∀ c, fs.content g = some c → ∀ X Q, Reach fs g (P ++ [fs.pathOf g]) c X Q → Reach fs x Px cx X Q

theorem loop_cyclic {fs : FileSys} {k : Nat} {A : List String} {f : String} {fid : Nat} {x : String} {T : Prop}
    (h : ∀ g st, EnterInv fs A g st.paths → assembleSource fs k A g st = some (.error (.cyclic x)) → T) :
    ∀ (is : List SrcItem) (l : Nat) (st : Asm), AncInv fs A f st.paths is → st.files[fid]? = some f →
    asmLoop fs (assembleSource fs k A) f fid l is st = some (.error (.cyclic x)) → T := by
  intro is
  induction is with
  | nil => intro l st _ _ hx; simp [asmLoop] at hx
  | cons a is ih =>
    intro l st hA hf hx
    cases a with
    | text w =>
      simp only [asmLoop] at hx
      cases hy : asmLoop fs (assembleSource fs k A) f fid l is st with
      | none => rw [hy] at hx; simp at hx
      | some y =>
        rw [hy] at hx
        cases y with
        | error e' =>
          simp at hx; subst hx
          refine ih _ _ ?_ hf hy
          intro g hg
          obtain ⟨Pg, cg, hcg, hr⟩ := hA g hg
          exact ⟨Pg, cg, hcg, fun X Q hx => hr X Q (.text hx)⟩
        | ok y => simp at hx
    | eol =>
      simp only [asmLoop] at hx
      cases hy : asmLoop fs (assembleSource fs k A) f fid (l + 1) is { st with remap := st.remap ++ [(st.lines, fid, l)], lines := st.lines + 1 } with
      | none => rw [hy] at hx; simp at hx
      | some y =>
        rw [hy] at hx
        cases y with
        | error e' =>
          simp at hx; subst hx
          refine ih _ _ ?_ (by exact hf) hy
          intro g hg
          obtain ⟨Pg, cg, hcg, hr⟩ := hA g hg
          exact ⟨Pg, cg, hcg, fun X Q hx => hr X Q (.eol hx)⟩
        | ok y => simp at hx
    | bad => simp [asmLoop] at hx
    | inc n =>
      simp only [asmLoop] at hx
      cases hy : assembleSource fs k A (resolveInc fs st.paths (fs.pathOf f) n) st with
      | none => rw [hy] at hx; simp at hx
      | some y =>
        rw [hy] at hx
        cases y with
        | error e' =>
          simp at hx; subst hx
          refine h _ _ ?_ hy
          intro g hg
          obtain ⟨Pg, cg, hcg, hr⟩ := hA g hg
          exact ⟨Pg, cg, hcg, fun hs => hr _ _ (.here rfl hs), fun c hc X Q hx => hr X Q (.into rfl hc hx)⟩
        | ok y =>
          obtain ⟨o, st1⟩ := y
          simp only at hx
          obtain ⟨c, a, m, hc, hexp, -, hadd⟩ := assemble_sound fs _ _ _ _ _ _ hy
          cases hz : asmLoop fs (assembleSource fs k A) f fid l is st1 with
          | none => rw [hz] at hx; simp at hx
          | some z =>
            rw [hz] at hx
            cases z with
            | error e' =>
              simp at hx; subst hx
              refine ih _ _ ?_ (prefix_getElem? hadd.files hf) hz
              intro g hg
              obtain ⟨Pg, cg, hcg, hr⟩ := hA g hg
              exact ⟨Pg, cg, hcg, fun X Q hx => hr X Q (.skip rfl hc hexp hx)⟩
            | ok z => simp at hx

theorem assemble_cyclic (fs : FileSys) (x : String) : ∀ (k : Nat) (A : List String) (g : String) (st : Asm),
    EnterInv fs A g st.paths → assembleSource fs k A g st = some (.error (.cyclic x)) →
    ∃ P c Q, fs.content x = some c ∧ Reach fs x P c x Q := by
  intro k
  induction k with
  | zero => intro A g st _ h; simp [assembleSource] at h
  | succ k ih =>
    intro A g st hE h
    simp only [assembleSource] at h
    cases hc : fs.content g with
    | none => rw [hc] at h; simp at h
    | some c =>
      rw [hc] at h
      simp only at h
      split at h
      · rename_i hm
        simp at h; subst h
        obtain ⟨Px, cx, h1, h2, _⟩ := hE g hm
        exact ⟨Px, cx, _, h1, h2 (by rw [hc]; rfl)⟩
      · refine loop_cyclic (fun g' st' hE' h' => ih (g :: A) g' st' hE' h') _ _ _ ?_ (by simp) h
        intro y hy
        rcases List.mem_cons.mp hy with rfl | hy
        · exact ⟨_, c, hc, fun X Q h => h⟩
        · obtain ⟨Px, cx, h1, _, h3⟩ := hE y hy
          exact ⟨Px, cx, h1, fun X Q hr => h3 c hc X Q hr⟩

end Silice
