import Verif.Lemmas.Include
import Verif.Lemmas.LineSearch
/-! Property theorems C15, C16. -/
set_option autoImplicit false
namespace Silice

/-- C15. With finitely many file names, processing includes terminates: nesting never exceeds the number of files. -/
theorem C15_terminates (fs : FileSys) (names : List String) (hfin : ∀ f, (fs.content f).isSome → f ∈ names)
    (root : String) (st : Asm) : ∃ r, assembleSource fs (names.length + 1) [] root st = some r := by
  have := assemble_total fs names hfin (names.length + 1) [] root st (by
    have := List.length_filter_le (fun x => decide (x ∉ ([] : List String))) names
    omega)
  exact Option.ne_none_iff_exists'.mp this

/-- C15. The assembly succeeds exactly when the textual expansion of the include tree exists, and then produces that text.
Files included from several places are expanded at each of them. -/
theorem C15_accepted_iff_expands (fs : FileSys) (root : String) (st : Asm) (o : List Tok) :
    (∃ k st', assembleSource fs k [] root st = some (.ok (o, st'))) ↔
    ∃ c a P n, fs.content root = some c ∧ Expands fs root 0 (st.paths ++ [fs.pathOf root]) c a P n ∧ o = a.map ATok.erase := by
  constructor
  · rintro ⟨k, st', h⟩
    obtain ⟨c, a, n, h1, h2, h3, _⟩ := assemble_sound fs k [] root st o st' h
    exact ⟨c, a, _, n, h1, h2, h3⟩
  · rintro ⟨c, a, P, n, h1, h2, rfl⟩
    obtain ⟨st', h3, _⟩ := follow h2 [root] n st.files.length
      { st with paths := st.paths ++ [fs.pathOf root], files := st.files ++ [root] } rfl (Nat.le_refl _) (by
        intro g hg
        simp at hg; subst hg
        exact ⟨_, c, h1, fun X Q h => h⟩)
    exact ⟨n + 1, st', by simp [assembleSource, h1, h3]⟩

/-- The places where an included file is looked for, in order: the name as written, then, for the directory of the including
file and for each search path, the last component of the name and the whole name in that directory. -/
def includeCandidates (fs : FileSys) (paths : List String) (path n : String) : List String :=
  n :: (path :: paths).flatMap (fun p => [p ++ "/" ++ fs.baseName n, p ++ "/" ++ n])

/-- C15. An included name denotes the first existing file among the candidates, and is left as written when there is none. -/
theorem C15_search_order (fs : FileSys) (paths : List String) (path n : String) :
    resolveInc fs paths path n = ((includeCandidates fs paths path n).find? (fun f => (fs.content f).isSome)).getD n := by
  have step : ∀ (ps : List String) (c : List String), n ∈ c →
      ps.foldl (fun f p => findFile1 fs p f) ((c.find? (fun f => (fs.content f).isSome)).getD n) =
      ((c ++ ps.flatMap (fun p => [p ++ "/" ++ fs.baseName n, p ++ "/" ++ n])).find? (fun f => (fs.content f).isSome)).getD n := by
    intro ps
    induction ps with
    | nil => intro c _; simp
    | cons p ps ih =>
      intro c hn
      have h1 : findFile1 fs p ((c.find? (fun f => (fs.content f).isSome)).getD n) =
          ((c ++ [p ++ "/" ++ fs.baseName n, p ++ "/" ++ n]).find? (fun f => (fs.content f).isSome)).getD n := by
        cases hf : c.find? (fun f => (fs.content f).isSome) with
        | some x =>
          have hx : (fs.content x).isSome := by simpa using List.find?_some hf
          simp [findFile1, hx, List.find?_append, hf]
        | none =>
          have h0 : ¬ (fs.content n).isSome := by
            have := List.find?_eq_none.mp hf n hn
            simpa using this
          by_cases h2 : (fs.content (p ++ "/" ++ fs.baseName n)).isSome
          · simp [findFile1, List.find?_append, hf, h0, h2]
          · by_cases h3 : (fs.content (p ++ "/" ++ n)).isSome
            · simp [findFile1, List.find?_append, hf, h0, h2, h3]
            · simp [findFile1, List.find?_append, hf, h0, h2, h3]
      rw [List.foldl_cons, h1, ih _ (by simp [hn])]
      simp
  have h := step (path :: paths) [n] (by simp)
  have h0 : (([n] : List String).find? (fun f => (fs.content f).isSome)).getD n = n := by
    by_cases h1 : (fs.content n).isSome <;> simp [h1]
  rw [h0] at h
  exact h

/-- C15. An error means that there is no expansion at all: cycles are rejected, and nothing but cycles, missing files and
malformed directives. A file reported missing does not exist; a file reported cyclic includes itself, directly or
through other files. -/
theorem C15_errors_exact (fs : FileSys) (root : String) (st : Asm) (k : Nat) (e : AsmErr)
    (h : assembleSource fs k [] root st = some (.error e)) :
    (¬ ∃ c a P n, fs.content root = some c ∧ Expands fs root 0 (st.paths ++ [fs.pathOf root]) c a P n) ∧
    (∀ f, e = .missing f → fs.content f = none) ∧
    (∀ f, e = .cyclic f → ∃ P c Q, fs.content f = some c ∧ Reach fs f P c f Q) := by
  refine ⟨?_, (assemble_error fs k [] root st e h).1, ?_⟩
  · rintro ⟨c, a, P, n, h1, h2⟩
    obtain ⟨k', st', h3⟩ := (C15_accepted_iff_expands fs root st (a.map ATok.erase)).mpr ⟨c, a, P, n, h1, h2, rfl⟩
    have e1 := assemble_mono fs k [] root st _ h (max k k') (by omega)
    have e2 := assemble_mono fs k' [] root st _ h3 (max k k') (by omega)
    rw [e1] at e2
    simp at e2
  · intro f hf
    subst hf
    exact assemble_cyclic fs f k [] root st (by intro x hx; simp at hx) h

/-- C16. After assembling sources from scratch, looking up line number `i` of the assembled text gives the file and line
its line end comes from. -/
theorem C16_assembled_line_origin (fs : FileSys) (root : String) (P0 : List String) (k : Nat) (o : List Tok) (st : Asm)
    (h : assembleSource fs k [] root { paths := P0 } = some (.ok (o, st))) :
    ∃ c a P n, fs.content root = some c ∧ Expands fs root 0 (P0 ++ [fs.pathOf root]) c a P n ∧ o = a.map ATok.erase ∧
      ∀ (i : Nat) (f : String) (l : Nat), (a.filterMap ATok.origin)[i]? = some (f, l) →
        searchLine st.files st.remap i = .loc f l := by
  obtain ⟨c, a, n, h1, h2, h3, h4⟩ := assemble_sound fs k [] root _ o st h
  refine ⟨c, a, _, n, h1, h2, h3, ?_⟩
  intro i f l hi
  obtain ⟨es, r1, r2, r3⟩ := h4.remap
  simp only [List.nil_append] at r1
  subst r1
  obtain ⟨id, hid, hfile⟩ := r3 i f l hi
  simp only [Nat.zero_add] at hid
  have hkey : ∀ (j : Nat) (e : Nat × Nat × Nat), st.remap[j]? = some e → e.1 = j := by
    intro j e he
    have hj : j < st.remap.length := by
      rcases Nat.lt_or_ge j st.remap.length with h | h
      · exact h
      · rw [List.getElem?_eq_none h] at he; simp at he
    obtain ⟨⟨f', l'⟩, hx⟩ := getElem?_of_lt (l := origins a) (i := j) (by omega)
    obtain ⟨id', hid', _⟩ := r3 j f' l' hx
    rw [he] at hid'
    simp at hid'
    rw [hid']
  have hs : keysSorted st.remap := by
    intro x y e1 e2 hxy hx hy
    rw [hkey x e1 hx, hkey y e2 hy]; exact hxy
  have hlen : i < st.remap.length := by
    rcases Nat.lt_or_ge i st.remap.length with h | h
    · exact h
    · rw [List.getElem?_eq_none h] at hid; simp at hid
  obtain ⟨e', g1, g2, g3⟩ := search_finds hs hid rfl _ 0 (st.remap.length - 1) rfl (by omega) (by omega) (by omega)
  have he' : e' = (i, id, l) := by
    obtain ⟨j, hj⟩ := List.mem_iff_getElem?.mp g2
    have := hkey j e' hj
    rw [g3] at this
    subst this
    simp only at hj
    rw [hid] at hj
    exact (Option.some.inj hj).symm
  subst he'
  unfold searchLine
  rw [if_neg (by omega)]
  simp [g1, hfile]

/-- C16. Both stages, for a line which is the first one written by the `j`-th call of `output` (every call writes at
least one line end): the reported position is that of the line of the assembled text given to that call. -/
theorem C16_two_stages (files : List String) (hfiles : files ≠ []) (calls : List OutCall) (hpos : ∀ c ∈ calls, 0 < c.num)
    (stage2 : List (Nat × Nat × Nat)) (j : Nat) (c : OutCall) (hj : calls[j]? = some c) :
    originalLine files (stage1Map 0 calls) stage2 (startOf 0 calls j) = searchLine files stage2 c.src := by
  have hlen : j < calls.length := by
    rcases Nat.lt_or_ge j calls.length with h | h
    · exact h
    · rw [List.getElem?_eq_none h] at hj; simp at hj
  have hl := stage1_length calls 0
  have hget : (stage1Map 0 calls)[j]? = some (startOf 0 calls j, 0, c.src) := by rw [stage1_get, hj]; rfl
  obtain ⟨e', g1, g2, g3⟩ := search_finds (stage1_sorted calls 0) hget rfl _ 0 ((stage1Map 0 calls).length - 1) rfl
    (by omega) (by omega) (by omega)
  have he' : e' = (startOf 0 calls j, 0, c.src) := by
    obtain ⟨i, hi⟩ := List.mem_iff_getElem?.mp g2
    have hi' := hi
    rw [stage1_get] at hi
    simp only [Option.map_eq_some_iff] at hi
    obtain ⟨d, hd, rfl⟩ := hi
    simp only at g3
    have hil : i < calls.length := by
      rcases Nat.lt_or_ge i calls.length with h | h
      · exact h
      · rw [List.getElem?_eq_none h] at hd; simp at hd
    have : i = j := by
      rcases Nat.lt_trichotomy i j with h | h | h
      · have := startOf_lt calls 0 hpos h (by omega); omega
      · exact h
      · have := startOf_lt calls 0 hpos h (by omega); omega
    subst this
    rw [hget] at hi'
    exact (Option.some.inj hi').symm
  subst he'
  obtain ⟨f0, rest, rfl⟩ : ∃ x xs, files = x :: xs := List.exists_cons_of_ne_nil hfiles
  unfold originalLine
  have : searchLine (f0 :: rest) (stage1Map 0 calls) (startOf 0 calls j) = .loc f0 c.src := by
    unfold searchLine
    rw [if_neg (by omega)]
    simp [g1]
  rw [this]

/-- C16 (negation). A line inside the text written by one call (a value spanning several lines inserted by `$...$`) is
reported at the position of the following call. -/
theorem C16_inner_line_reports_next_call (files : List String) (hfiles : files ≠ []) (calls : List OutCall)
    (stage2 : List (Nat × Nat × Nat)) (j : Nat) (c d : OutCall) (hj : calls[j]? = some c)
    (hd : calls[j + 1]? = some d) (i : Nat) (h1 : startOf 0 calls j < i) (h2 : i < startOf 0 calls j + c.num) :
    originalLine files (stage1Map 0 calls) stage2 i = searchLine files stage2 d.src := by
  have hlen : j + 1 < calls.length := by
    rcases Nat.lt_or_ge (j + 1) calls.length with h | h
    · exact h
    · rw [List.getElem?_eq_none h] at hd; simp at hd
  have hl := stage1_length calls 0
  have hs := startOf_succ calls 0 j c hj
  have hget : (stage1Map 0 calls)[j + 1]? = some (startOf 0 calls (j + 1), 0, d.src) := by rw [stage1_get, hd]; rfl
  have key : ∀ (x : Nat) (e : Nat × Nat × Nat), (stage1Map 0 calls)[x]? = some e → e.1 = startOf 0 calls x ∧ x < calls.length := by
    intro x e hx
    rw [stage1_get] at hx
    simp only [Option.map_eq_some_iff] at hx
    obtain ⟨d', hd', rfl⟩ := hx
    refine ⟨rfl, ?_⟩
    rcases Nat.lt_or_ge x calls.length with h | h
    · exact h
    · rw [List.getElem?_eq_none h] at hd'; simp at hd'
  have hlow : ∀ x (e : Nat × Nat × Nat), x < j + 1 → (stage1Map 0 calls)[x]? = some e → e.1 < i := by
    intro x e hx he
    have := key x e he
    have h3 := startOf_mono calls 0 (j - x) x (by omega)
    rw [show x + (j - x) = j by omega] at h3
    omega
  have hup : ∀ (e : Nat × Nat × Nat), (stage1Map 0 calls)[j + 1]? = some e → i < e.1 := by
    intro e he
    have := key _ e he
    omega
  have hno : ∀ e ∈ stage1Map 0 calls, e.1 ≠ i := by
    intro e he
    obtain ⟨x, hx⟩ := List.mem_iff_getElem?.mp he
    have hk := key x e hx
    rcases Nat.lt_or_ge x (j + 1) with h | h
    · have := hlow x e h hx; omega
    · have h3 := startOf_mono calls 0 (x - (j + 1)) (j + 1) (by omega)
      rw [show j + 1 + (x - (j + 1)) = x by omega] at h3
      omega
  have g := search_absent (stage1_sorted calls 0) hno (j := j + 1) _ 0 ((stage1Map 0 calls).length - 1) rfl
    (by omega) (by omega) (by omega) hlow (.inr hup)
  obtain ⟨f0, rest, rfl⟩ : ∃ x xs, files = x :: xs := List.exists_cons_of_ne_nil hfiles
  unfold originalLine
  have : searchLine (f0 :: rest) (stage1Map 0 calls) (i : Nat) = .loc f0 d.src := by
    unfold searchLine
    rw [if_neg (by omega)]
    simp [g, hget]
  rw [this]

/-- C16. Negative positions have no location. -/
theorem C16_negative_position (files : List String) (s1 s2 : List (Nat × Nat × Nat)) (line : Int) (h : line < 0) :
    originalLine files s1 s2 line = .noLoc := by
  unfold originalLine searchLine
  rw [if_pos h]
  simp

/-- C16 (finding). Without any line end in the sources (or any output) the search reads an empty map. -/
theorem C16_empty_map_undefined (files : List String) (line : Int) (h : 0 ≤ line) : searchLine files [] line = .undef := by
  unfold searchLine
  rw [if_neg (by omega), searchLoop]
  simp

/-! ### Two names for one file

`d/x.si` contains `$include("../e/y.si")` and `e/y.si` contains `$include("../d/x.si")`. Files are compared by name, and each
turn around the cycle gives a longer name. -/

def turnDir : Nat → String
  | 0 => "d"
  | k + 1 => turnDir k ++ "/../e/../d"

def turnX (k : Nat) : String := turnDir k ++ "/x.si"
def turnY (k : Nat) : String := turnDir k ++ "/../e/y.si"

open Classical in
/-- The two files under all their names; `pathOf` removes the last component (`/x.si` or `/y.si`). -/
noncomputable def turnFs : FileSys where
  content := fun s =>
    if ∃ k, s = turnX k then some [.inc "../e/y.si"]
    else if ∃ k, s = turnY k then some [.inc "../d/x.si"]
    else none
  pathOf := fun s => String.ofList (s.toList.take (s.toList.length - 5))
  baseName := fun s => String.ofList (s.toList.drop (s.toList.length - 4))

theorem turnDir_last (k : Nat) : ∃ pre, (turnDir k).toList = pre ++ ['d'] := by
  cases k with
  | zero => exact ⟨[], by decide⟩
  | succ k => exact ⟨(turnDir k).toList ++ "/../e/../".toList, by simp [turnDir]⟩

theorem turnDir_first (k : Nat) : ∃ post, (turnDir k).toList = 'd' :: post := by
  induction k with
  | zero => exact ⟨[], by decide⟩
  | succ k ih =>
    obtain ⟨p, hp⟩ := ih
    exact ⟨p ++ "/../e/../d".toList, by simp [turnDir, hp]⟩

theorem tail_ne {a b x y : List Char} (hl : x.length = y.length) (h : x ≠ y) : a ++ x ≠ b ++ y := by
  intro e
  exact h (List.append_inj_right' e hl)

theorem not_X {s : String} {a x : List Char} (hs : s.toList = a ++ x) (hl : x.length = 6) (hx : x ≠ "d/x.si".toList) :
    ¬ ∃ k, s = turnX k := by
  rintro ⟨k, rfl⟩
  obtain ⟨p, hp⟩ := turnDir_last k
  have : (turnX k).toList = p ++ "d/x.si".toList := by simp [turnX, hp]
  rw [this] at hs
  exact tail_ne (by simp [hl]) (Ne.symm hx) hs

theorem not_Y {s : String} {a x : List Char} (hs : s.toList = a ++ x) (hl : x.length = 6) (hx : x ≠ "e/y.si".toList) :
    ¬ ∃ k, s = turnY k := by
  rintro ⟨k, rfl⟩
  have : (turnY k).toList = ((turnDir k).toList ++ "/../".toList) ++ "e/y.si".toList := by simp [turnY]
  rw [this] at hs
  exact tail_ne (by simp [hl]) (Ne.symm hx) hs

theorem turn_content_X (k : Nat) : turnFs.content (turnX k) = some [.inc "../e/y.si"] := by
  simp only [turnFs]; rw [if_pos ⟨k, rfl⟩]

theorem turn_content_Y (k : Nat) : turnFs.content (turnY k) = some [.inc "../d/x.si"] := by
  simp only [turnFs]
  rw [if_neg (not_X (a := (turnDir k).toList ++ "/../".toList) (x := "e/y.si".toList) (by simp [turnY]) (by decide) (by decide)),
    if_pos ⟨k, rfl⟩]

theorem turn_content_none {s : String} {a x : List Char} (hs : s.toList = a ++ x) (hl : x.length = 6)
    (hx : x ≠ "d/x.si".toList) (hy : x ≠ "e/y.si".toList) : turnFs.content s = none := by
  simp only [turnFs]
  rw [if_neg (not_X hs hl hx), if_neg (not_Y hs hl hy)]

theorem turn_relative {s : String} {r : List Char} (hs : s.toList = '.' :: r) : turnFs.content s = none := by
  simp only [turnFs]
  rw [if_neg, if_neg]
  · rintro ⟨k, rfl⟩
    obtain ⟨p, hp⟩ := turnDir_first k
    simp [turnY, hp] at hs
  · rintro ⟨k, rfl⟩
    obtain ⟨p, hp⟩ := turnDir_first k
    simp [turnX, hp] at hs

theorem turn_path_X (k : Nat) : turnFs.pathOf (turnX k) = turnDir k := by
  simp only [turnFs, turnX, String.toList_append, List.length_append]
  have : "/x.si".toList.length = 5 := by decide
  rw [this, Nat.add_sub_cancel, List.take_left]
  simp

theorem turn_path_Y (k : Nat) : turnFs.pathOf (turnY k) = turnDir k ++ "/../e" := by
  have : (turnY k).toList = (turnDir k ++ "/../e").toList ++ "/y.si".toList := by simp [turnY]
  simp only [turnFs, this, List.length_append]
  have h5 : "/y.si".toList.length = 5 := by decide
  rw [h5, Nat.add_sub_cancel, List.take_left]
  simp

theorem turn_base_y : turnFs.baseName "../e/y.si" = "y.si" := by simp only [turnFs]; decide +kernel
theorem turn_base_x : turnFs.baseName "../d/x.si" = "x.si" := by simp only [turnFs]; decide +kernel

theorem turn_resolve_X (P : List String) (k : Nat) : resolveInc turnFs P (turnFs.pathOf (turnX k)) "../e/y.si" = turnY k := by
  have h1 : findFile1 turnFs (turnFs.pathOf (turnX k)) "../e/y.si" = turnY k := by
    obtain ⟨p, hp⟩ := turnDir_last k
    have e : turnDir k ++ "/" ++ "../e/y.si" = turnY k := by
      apply String.toList_inj.mp; simp [turnY]
    have n1 : turnFs.content "../e/y.si" = none := turn_relative (r := "./e/y.si".toList) (by decide)
    have n2 : turnFs.content (turnDir k ++ "/" ++ "y.si") = none :=
      turn_content_none (a := p) (x := "d/y.si".toList) (by simp [hp]) (by decide) (by decide) (by decide)
    unfold findFile1
    rw [turn_path_X, turn_base_y, n1, n2, e, turn_content_Y]
    simp
  unfold resolveInc
  rw [h1]
  exact foldl_exists P (by rw [turn_content_Y]; rfl)

theorem turn_resolve_Y (P : List String) (k : Nat) : resolveInc turnFs P (turnFs.pathOf (turnY k)) "../d/x.si" = turnX (k + 1) := by
  have h1 : findFile1 turnFs (turnFs.pathOf (turnY k)) "../d/x.si" = turnX (k + 1) := by
    have e : turnDir k ++ "/../e" ++ "/" ++ "../d/x.si" = turnX (k + 1) := by
      apply String.toList_inj.mp; simp [turnX, turnDir]
    have n1 : turnFs.content "../d/x.si" = none := turn_relative (r := "./d/x.si".toList) (by decide)
    have n2 : turnFs.content (turnDir k ++ "/../e" ++ "/" ++ "x.si") = none :=
      turn_content_none (a := (turnDir k).toList ++ "/../".toList) (x := "e/x.si".toList) (by simp) (by decide) (by decide) (by decide)
    unfold findFile1
    rw [turn_path_Y, turn_base_x, n1, n2, e, turn_content_X]
    simp
  unfold resolveInc
  rw [h1]
  exact foldl_exists P (by rw [turn_content_X]; rfl)

theorem turn_length_Y (k : Nat) : (turnY k).toList.length = (turnX k).toList.length + 5 := by
  simp [turnX, turnY]

theorem turn_length_X (k : Nat) : (turnX (k + 1)).toList.length = (turnY k).toList.length + 5 := by
  simp [turnX, turnY, turnDir]

theorem turn_diverges (n : Nat) : ∀ (A : List String) (st : Asm) (k : Nat),
    ((∀ a ∈ A, a.toList.length < (turnX k).toList.length) → assembleSource turnFs n A (turnX k) st = none) ∧
    ((∀ a ∈ A, a.toList.length < (turnY k).toList.length) → assembleSource turnFs n A (turnY k) st = none) := by
  induction n with
  | zero => intro A st k; simp [assembleSource]
  | succ n ih =>
    intro A st k
    constructor
    · intro hA
      have hn : turnX k ∉ A := fun h => Nat.lt_irrefl _ (hA _ h)
      simp only [assembleSource, turn_content_X]
      rw [if_neg hn]
      simp only [asmLoop, turn_resolve_X]
      rw [(ih (turnX k :: A) _ k).2]
      intro a ha
      have := turn_length_Y k
      rcases List.mem_cons.mp ha with rfl | ha
      · omega
      · have := hA a ha; omega
    · intro hA
      have hn : turnY k ∉ A := fun h => Nat.lt_irrefl _ (hA _ h)
      simp only [assembleSource, turn_content_Y]
      rw [if_neg hn]
      simp only [asmLoop, turn_resolve_Y]
      rw [(ih (turnY k :: A) _ (k + 1)).1]
      intro a ha
      have := turn_length_X k
      rcases List.mem_cons.mp ha with rfl | ha
      · omega
      · have := hA a ha; omega

/-- C15 (negation, when one file has several names). Two files including each other through relative paths are never
reported as cyclic: the nesting grows without bound (until names become too long for the operating system). -/
theorem C15_cycle_under_new_names_undetected (n : Nat) (st : Asm) : assembleSource turnFs n [] "d/x.si" st = none := by
  have := (turn_diverges n [] st 0).1 (by simp)
  exact this


/-! Non-vacuity: two files, the second included twice (a diamond), one cycle. -/
def demoFs : FileSys where
  content := fun f =>
    if f = "a" then some [.text "x", .eol, .inc "b", .eol, .inc "b"]
    else if f = "b" then some [.text "y", .eol]
    else if f = "c" then some [.inc "d"]
    else if f = "d" then some [.text "z", .inc "c"]
    else none
  pathOf := fun _ => "."
  baseName := id

example : assembleSource demoFs 3 [] "a" {} = some (.ok ([.text "x", .eol, .text "y", .eol, .eol, .text "y", .eol],
    { paths := [".", ".", "."], files := ["a", "b", "b"],
      remap := [(0, 0, 0), (1, 1, 0), (2, 0, 1), (3, 2, 0)], lines := 4 })) := by decide +kernel
example : assembleSource demoFs 3 [] "c" {} = some (.error (.cyclic "c")) := by decide +kernel
example : ∀ f, (demoFs.content f).isSome → f ∈ ["a", "b", "c", "d"] := by
  intro f h
  simp only [demoFs] at h
  split_ifs at h <;> simp_all
example : originalLine ["a", "b"] (stage1Map 0 [⟨1, 0⟩, ⟨2, 2⟩, ⟨1, 3⟩]) [(0, 0, 0), (1, 1, 0), (2, 0, 1), (3, 0, 2)] 1 = .loc "a" 1 := by
  decide +kernel

end Silice
