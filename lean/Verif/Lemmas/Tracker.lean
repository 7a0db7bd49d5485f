import Verif.Spec.Tracker

set_option autoImplicit false

namespace Silice

section
variable {V : Type} {kind : String → Option TrkKind} {fx : TFix V} {tr : V → Bool} {ts : List (Trk V)} {q : String → V}

theorem TExp.Reads.left {f : V → V → V} {a b : TExp V} {x : String} (h : a.Reads x) : (TExp.app f a b).Reads x := by
  obtain ⟨c, h⟩ := h
  exact ⟨c, List.mem_append_left _ h⟩

theorem TExp.Reads.right {f : V → V → V} {a b : TExp V} {x : String} (h : b.Reads x) : (TExp.app f a b).Reads x := by
  obtain ⟨c, h⟩ := h
  exact ⟨c, List.mem_append_right _ h⟩

theorem TExp.reads_ref {c : Bool} {x : String} : (TExp.ref c x : TExp V).Reads x := ⟨c, List.mem_singleton.2 rfl⟩

/-- The value of an expression is that of what it reads. -/
theorem TExp.eval_congr {u v : String → V} : ∀ (e : TExp V), (∀ x, e.Reads x → u x = v x) → e.eval u = e.eval v
  | .lit _, _ => rfl
  | .ref _ x, h => h x TExp.reads_ref
  | .app f a b, h => by
    show f _ _ = f _ _
    rw [a.eval_congr fun x hx => h x hx.left, b.eval_congr fun x hx => h x hx.right]

theorem codeVal_congr {w w' cur cur' : String → V} {x : String} (hw : kind x = some .wire → w x = w' x)
    (hc : kind x ≠ some .wire → cur x = cur' x) : codeVal kind fx w cur x = codeVal kind fx w' cur' x := by
  unfold codeVal
  cases hk : kind x with
  | none => exact hc (by rw [hk]; simp)
  | some k => cases k <;> simp_all

/-- Trackers agree where what they follow agrees. -/
theorem tracks_agree {rank : String → Nat}
    (hr : ∀ t ∈ ts, ∀ x, t.e.Reads x → kind x = some .wire → rank x < rank t.name)
    (hin : ∀ t ∈ ts, ∀ x, t.e.Reads x → kind x = some .wire → ∃ s ∈ ts, s.name = x)
    {cur cur' w w' : String → V} (h : Tracks kind fx ts q cur w) (h' : Tracks kind fx ts q cur' w') :
    ∀ (n : Nat) (t : Trk V), t ∈ ts → rank t.name = n → (∀ y, Follows kind ts t.name y → cur y = cur' y) → w t.name = w' t.name := by
  intro n
  induction n using Nat.strongRecOn with
  | ind n ih =>
    intro t ht hn hf
    rw [h t ht, h' t ht]
    congr 1
    refine t.e.eval_congr fun x hx => codeVal_congr (fun hk => ?_) (fun hk => ?_)
    · obtain ⟨s, hs, rfl⟩ := hin t ht x hx hk
      exact ih _ (hn ▸ hr t ht _ hx hk) s hs rfl fun y hy => hf y (.through t _ y ht hx hk hy)
    · cases hd : t.dbl with
      | true => rfl
      | false => exact hf x (.here t x ht hd hx hk)

/-- The trackers computed `n` deep. -/
def trkIter (kind : String → Option TrkKind) (fx : TFix V) (ts : List (Trk V)) (q cur : String → V) : Nat → String → V
  | 0 => cur
  | n + 1 => fun x =>
    match ts.find? (fun t => t.name == x) with
    | some t => t.cut (t.e.eval (codeVal kind fx (trkIter kind fx ts q cur n) (if t.dbl then q else cur)))
    | none => cur x

theorem find_of_nodup (hn : (ts.map (·.name)).Nodup) {t : Trk V} (ht : t ∈ ts) : ts.find? (fun s => s.name == t.name) = some t := by
  induction ts with
  | nil => simp at ht
  | cons a l ih =>
    rw [List.map_cons, List.nodup_cons] at hn
    rcases List.mem_cons.1 ht with rfl | ht
    · simp
    · have : a.name ≠ t.name := fun e => hn.1 (e ▸ List.mem_map_of_mem ht)
      rw [List.find?_cons_of_neg (by simpa using this)]
      exact ih hn.2 ht

theorem trkIter_stable {rank : String → Nat}
    (hr : ∀ t ∈ ts, ∀ x, t.e.Reads x → kind x = some .wire → rank x < rank t.name) (cur : String → V) :
    ∀ (n m : Nat) (x : String), rank x < n → rank x < m → trkIter kind fx ts q cur n x = trkIter kind fx ts q cur m x := by
  intro n
  induction n with
  | zero => intro m x h; omega
  | succ n ih =>
    intro m x h1 h2
    cases m with
    | zero => omega
    | succ m =>
      show (match ts.find? (fun t => t.name == x) with | some t => _ | none => _) =
        (match ts.find? (fun t => t.name == x) with | some t => _ | none => _)
      cases hf : ts.find? (fun t => t.name == x) with
      | none => rfl
      | some t =>
        have ht := List.mem_of_find?_eq_some hf
        have he : t.name = x := by simpa using List.find?_some hf
        simp only
        congr 1
        refine t.e.eval_congr fun y hy => codeVal_congr (fun hk => ?_) (fun _ => rfl)
        have := hr t ht y hy hk
        rw [he] at this
        exact ih m y (by omega) (by omega)

/-- Trackers have values, whatever the current values. -/
theorem tracks_exist {code : TCode V} (hs : TrkSound kind ts code) (cur : String → V) : ∃ w, Tracks kind fx ts q cur w := by
  obtain ⟨rank, hr⟩ := hs.noCycle
  refine ⟨fun x => trkIter kind fx ts q cur (rank x + 1) x, fun t ht => ?_⟩
  show (match ts.find? (fun s => s.name == t.name) with | some t => _ | none => _) = _
  rw [find_of_nodup hs.names ht]
  simp only
  congr 1
  refine t.e.eval_congr fun y hy => codeVal_congr (fun hk => ?_) (fun _ => rfl)
  exact trkIter_stable hr cur _ _ y (hr t ht y hy hk) (by omega)

/-- Code leaves alone what it does not assign. -/
theorem run_keeps {w : String → V} : ∀ (code : TCode V) (cur : String → V) (y : String), y ∉ code.assigned →
    code.run kind fx tr w cur y = cur y
  | .nil, _, _, _ => rfl
  | .asg x e k, cur, y, h => by
    simp only [TCode.assigned, List.mem_cons, not_or] at h
    rw [TCode.run, run_keeps k _ y h.2, Function.update_of_ne h.1]
  | .ite c t e k, cur, y, h => by
    simp only [TCode.assigned, List.mem_append, not_or] at h
    rw [TCode.run, run_keeps k _ y h.2.2]
    split
    · exact run_keeps t _ y h.1
    · exact run_keeps e _ y h.2.1

theorem srcTrk_keeps {code : TCode V} {cur r : String → V} (h : SrcTrk kind fx tr ts q code cur r) :
    ∀ y, y ∉ code.assigned → r y = cur y := by
  induction h with
  | nil => intros; rfl
  | asg x e k cur w r _ _ ih =>
    intro y hy
    simp only [TCode.assigned, List.mem_cons, not_or] at hy
    rw [ih y hy.2, Function.update_of_ne hy.1]
  | ite c t e k cur w m r _ _ _ ih1 ih2 =>
    intro y hy
    simp only [TCode.assigned, List.mem_append, not_or] at hy
    rw [ih2 y hy.2.2]
    refine ih1 y ?_
    split
    · exact hy.1
    · exact hy.2.1

/-- An expression that reads no late tracker has the same value with the settled wires. -/
theorem read_eq {code : TCode V} (hs : TrkSound kind ts code) {e : TExp V} {l : List String} (hc : TrkClear kind ts e l)
    (hin : ∀ x, e.Reads x → kind x = some .wire → ∃ t ∈ ts, t.name = x) {cur fin w w' : String → V}
    (hf : Tracks kind fx ts q fin w) (hcur : Tracks kind fx ts q cur w') (hk : ∀ y, y ∉ l → fin y = cur y) :
    e.eval (codeVal kind fx w cur) = e.eval (codeVal kind fx w' cur) := by
  obtain ⟨rank, hr⟩ := hs.noCycle
  refine e.eval_congr fun x hx => codeVal_congr (fun hw => ?_) (fun _ => rfl)
  obtain ⟨t, ht, rfl⟩ := hin x hx hw
  exact tracks_agree hr hs.inTrks hf hcur _ t ht rfl fun y hy => hk y (hc _ hx hw y hy)

/-- The code with the settled wires does what the source does. -/
theorem run_src {code₀ : TCode V} (hs : TrkSound kind ts code₀) {fin w : String → V} (hf : Tracks kind fx ts q fin w) :
    ∀ (code : TCode V) (after : List String) (cur : String → V), NotLate kind ts after code →
    (∀ x, code.Reads x → kind x = some .wire → ∃ t ∈ ts, t.name = x) →
    (∀ y, y ∉ after → fin y = code.run kind fx tr w cur y) → SrcTrk kind fx tr ts q code cur (code.run kind fx tr w cur)
  | .nil, _, cur, _, _, _ => .nil cur
  | .asg x e k, after, cur, hl, hin, hfin => by
    obtain ⟨w', hw'⟩ := tracks_exist (fx := fx) (q := q) hs cur
    have he : e.eval (codeVal kind fx w cur) = e.eval (codeVal kind fx w' cur) := by
      refine read_eq hs hl.1 (fun x hx => hin x (.inl hx)) hf hw' fun y hy => ?_
      simp only [List.mem_cons, List.mem_append, not_or] at hy
      rw [hfin y hy.2.2, TCode.run, run_keeps k _ y hy.2.1, Function.update_of_ne hy.1]
    refine .asg x e k cur w' _ hw' ?_
    rw [← he]
    exact run_src hs hf k after _ hl.2 (fun x hx => hin x (.inr hx)) hfin
  | .ite c t e k, after, cur, hl, hin, hfin => by
    obtain ⟨w', hw'⟩ := tracks_exist (fx := fx) (q := q) hs cur
    have he : c.eval (codeVal kind fx w cur) = c.eval (codeVal kind fx w' cur) := by
      refine read_eq hs hl.1 (fun x hx => hin x (.inl hx)) hf hw' fun y hy => ?_
      simp only [List.mem_append, not_or] at hy
      rw [hfin y hy.2.2.2]
      exact run_keeps (.ite c t e k) cur y (by simp only [TCode.assigned, List.mem_append, not_or]; exact ⟨hy.1, hy.2.1, hy.2.2.1⟩)
    have hk := run_src hs hf k after _ hl.2.2.2 (fun x hx => hin x (.inr (.inr (.inr hx)))) hfin
    refine .ite c t e k cur w' _ _ hw' ?_ hk
    rw [← he]
    have hmid : ∀ y, y ∉ k.assigned ++ after → fin y =
        (if tr (c.eval (codeVal kind fx w cur)) then t.run kind fx tr w cur else e.run kind fx tr w cur) y := by
      intro y hy
      simp only [List.mem_append, not_or] at hy
      rw [hfin y hy.2, TCode.run, run_keeps k _ y hy.1]
    cases hb : tr (c.eval (codeVal kind fx w cur)) with
    | true =>
      rw [hb] at hmid
      exact run_src hs hf t _ cur hl.2.1 (fun x hx => hin x (.inr (.inl hx))) hmid
    | false =>
      rw [hb] at hmid
      exact run_src hs hf e _ cur hl.2.2.1 (fun x hx => hin x (.inr (.inr (.inl hx)))) hmid

/-- The source has a result. -/
theorem src_exists {code₀ : TCode V} (hs : TrkSound kind ts code₀) : ∀ (code : TCode V) (cur : String → V),
    ∃ r, SrcTrk kind fx tr ts q code cur r
  | .nil, cur => ⟨cur, .nil cur⟩
  | .asg x e k, cur => by
    obtain ⟨w, hw⟩ := tracks_exist (fx := fx) (q := q) hs cur
    obtain ⟨r, hr⟩ := src_exists hs k (Function.update cur x (e.eval (codeVal kind fx w cur)))
    exact ⟨r, .asg x e k cur w r hw hr⟩
  | .ite c t e k, cur => by
    obtain ⟨w, hw⟩ := tracks_exist (fx := fx) (q := q) hs cur
    have : ∃ m, SrcTrk kind fx tr ts q (if tr (c.eval (codeVal kind fx w cur)) then t else e) cur m := by
      split
      · exact src_exists hs t cur
      · exact src_exists hs e cur
    obtain ⟨m, hm⟩ := this
    obtain ⟨r, hr⟩ := src_exists hs k m
    exact ⟨r, .ite c t e k cur w m r hw hm hr⟩

/-- Wires that carry the expressions on the result of the source lead to that result. -/
theorem src_run {code₀ : TCode V} (hs : TrkSound kind ts code₀) {fin w : String → V} (hf : Tracks kind fx ts q fin w)
    {code : TCode V} {cur r : String → V} (h : SrcTrk kind fx tr ts q code cur r) :
    ∀ (after : List String), NotLate kind ts after code →
    (∀ x, code.Reads x → kind x = some .wire → ∃ t ∈ ts, t.name = x) →
    (∀ y, y ∉ after → fin y = r y) → code.run kind fx tr w cur = r := by
  induction h with
  | nil => intros; rfl
  | asg x e k cur w' r hw' hsrc ih =>
    intro after hl hin hfin
    have he : e.eval (codeVal kind fx w cur) = e.eval (codeVal kind fx w' cur) := by
      refine read_eq hs hl.1 (fun x hx => hin x (.inl hx)) hf hw' fun y hy => ?_
      simp only [List.mem_cons, List.mem_append, not_or] at hy
      rw [hfin y hy.2.2, srcTrk_keeps hsrc y hy.2.1, Function.update_of_ne hy.1]
    rw [TCode.run, he]
    exact ih after hl.2 (fun x hx => hin x (.inr hx)) hfin
  | ite c t e k cur w' m r hw' hsrc1 hsrc2 ih1 ih2 =>
    intro after hl hin hfin
    have hmid : ∀ y, y ∉ k.assigned ++ after → fin y = m y := by
      intro y hy
      simp only [List.mem_append, not_or] at hy
      rw [hfin y hy.2, srcTrk_keeps hsrc2 y hy.1]
    have he : c.eval (codeVal kind fx w cur) = c.eval (codeVal kind fx w' cur) := by
      refine read_eq hs hl.1 (fun x hx => hin x (.inl hx)) hf hw' fun y hy => ?_
      simp only [List.mem_append, not_or] at hy
      rw [hmid y (by simp only [List.mem_append, not_or]; exact hy.2.2)]
      refine srcTrk_keeps hsrc1 y ?_
      split
      · exact hy.1
      · exact hy.2.1
    have hk := ih2 after hl.2.2.2 (fun x hx => hin x (.inr (.inr (.inr hx)))) hfin
    rw [TCode.run, he]
    cases hb : tr (c.eval (codeVal kind fx w' cur)) with
    | true =>
      simp [hb] at ih1
      rw [if_pos rfl, ih1 _ hl.2.1 (fun x hx => hin x (.inr (.inl hx))) hmid, hk]
    | false =>
      simp [hb] at ih1
      rw [if_neg (by simp), ih1 _ hl.2.2.1 (fun x hx => hin x (.inr (.inr (.inl hx)))) hmid, hk]

/-- The source determines its result. -/
theorem srcTrk_unique {code₀ : TCode V} (hs : TrkSound kind ts code₀) {code : TCode V} {cur r : String → V}
    (h : SrcTrk kind fx tr ts q code cur r) : ∀ {r' : String → V},
    (∀ x, code.Reads x → kind x = some .wire → ∃ t ∈ ts, t.name = x) → SrcTrk kind fx tr ts q code cur r' → r = r' := by
  have key : ∀ {e : TExp V} {cur w w' : String → V}, (∀ x, e.Reads x → kind x = some .wire → ∃ t ∈ ts, t.name = x) →
      Tracks kind fx ts q cur w → Tracks kind fx ts q cur w' → e.eval (codeVal kind fx w cur) = e.eval (codeVal kind fx w' cur) :=
    fun hin h1 h2 => read_eq (l := []) hs (fun _ _ _ _ _ => by simp) hin h1 h2 fun _ _ => rfl
  induction h with
  | nil => intro r' _ h'; cases h'; rfl
  | asg x e k cur w r hw _ ih =>
    intro r' hin h'
    cases h' with
    | asg _ _ _ _ w' _ hw' h' =>
      rw [← key (fun x hx => hin x (.inl hx)) hw hw'] at h'
      exact ih (fun x hx => hin x (.inr hx)) h'
  | ite c t e k cur w m r hw _ _ ih1 ih2 =>
    intro r' hin h'
    cases h' with
    | ite _ _ _ _ _ w' m' _ hw' h1 h2 =>
      rw [← key (fun x hx => hin x (.inl hx)) hw hw'] at h1
      have hm : m = m' := by
        refine ih1 (fun x hx => hin x ?_) h1
        split at hx
        · exact .inr (.inl hx)
        · exact .inr (.inr (.inl hx))
      rw [← hm] at h2
      exact ih2 (fun x hx => hin x (.inr (.inr (.inr hx)))) h2

/-- What is written for an expression has its value. -/
theorem trkText_eval {ffD : Bool} {deps : List String} (hd : ∀ x ∈ deps, kind x ≠ some .ff) {fin w : String → V} :
    ∀ (e : TExp V) (x : TTxt V), trkText kind ffD deps e = some x → (ffD = false → ∀ y, e.Reads y → kind y ≠ some .temp) →
    x.eval ⟨fx.inp, fx.bnd, fx.cst, fin, fin, q, w⟩ = e.eval (codeVal kind fx w (if ffD then fin else q))
  | .lit v, x, h, _ => by cases h; rfl
  | .ref c y, x, h, ht => by
    have hy := fun hf => ht hf y TExp.reads_ref
    simp only [trkText, trkName] at h
    show _ = codeVal kind fx w _ y
    unfold codeVal
    cases hk : kind y with
    | none => rw [hk] at h; cases h
    | some k =>
      rw [hk] at h
      cases k with
      | temp => cases ffD with
        | false => exact absurd hk (hy rfl)
        | true => cases h; rfl
      | ff => cases ffD with
        | false =>
          have hn : deps.contains y = false := by
            simp only [List.contains_eq_mem, decide_eq_false_iff_not]
            exact fun hm => hd y hm hk
          simp only [hn] at h
          cases h; rfl
        | true => cases h; rfl
      | _ => cases h; rfl
  | .app f a b, x, h, ht => by
    simp only [trkText, Option.bind_eq_bind, Option.bind_eq_some_iff, Option.pure_def, Option.some.injEq] at h
    obtain ⟨a', ha, b', hb, rfl⟩ := h
    show f _ _ = f _ _
    rw [trkText_eval hd a a' ha fun e y hy => ht e y hy.left, trkText_eval hd b b' hb fun e y hy => ht e y hy.right]

/-- The wires have settled when the trackers that are used carry their expressions on the final values. -/
theorem settled_iff {accessed : String → Bool} {code : TCode V} {w : String → V} :
    ∀ (ts : List (Trk V)) (deps : List String) (xs : List (String × (V → V) × TTxt V)),
    (∀ x ∈ deps, kind x ≠ some .ff) → (∀ t ∈ ts, kind t.name = some .wire) →
    (∀ t ∈ ts, t.dbl = true → ∀ x, t.e.Reads x → kind x ≠ some .temp) → writeTrks kind accessed deps ts = some xs →
    (TrkSettled kind fx tr code xs q w ↔ Tracks kind fx (ts.filter fun t => accessed t.name) q (code.run kind fx tr w q) w)
  | [], deps, xs, _, _, _, h => by cases h; simp [TrkSettled, Tracks]
  | t :: ts, deps, xs, hd, hw, hh, h => by
    rw [writeTrks] at h
    have hw' := fun s hs => hw s (List.mem_cons_of_mem _ hs)
    have hh' := fun s hs => hh s (List.mem_cons_of_mem _ hs)
    cases ha : accessed t.name with
    | false =>
      rw [ha] at h
      rw [List.filter_cons_of_neg (by simp [ha])]
      exact settled_iff ts deps xs hd hw' hh' h
    | true =>
      rw [ha] at h
      simp only [Bool.not_true, Bool.false_eq_true, if_false, Option.bind_eq_bind, Option.bind_eq_some_iff, Option.pure_def,
        Option.some.injEq] at h
      obtain ⟨x, hx, ys, hys, rfl⟩ := h
      have hd' : ∀ y ∈ (if (!t.dbl) = true then deps ++ [t.name] else deps), kind y ≠ some .ff := by
        intro y hy
        split at hy
        · rcases List.mem_append.1 hy with hy | hy
          · exact hd y hy
          · rw [List.mem_singleton.1 hy, hw t (List.mem_cons_self ..)]; simp
        · exact hd y hy
      have ih := settled_iff (code := code) (w := w) ts _ ys hd' hw' hh' hys
      have he := trkText_eval (fx := fx) (q := q) hd (fin := code.run kind fx tr w q) (w := w) t.e x hx
        (fun e => hh t (List.mem_cons_self ..) (by simpa using e))
      have hif : (if (!t.dbl) = true then code.run kind fx tr w q else q) = if t.dbl = true then q else code.run kind fx tr w q := by
        cases t.dbl <;> rfl
      rw [hif] at he
      rw [List.filter_cons_of_pos (by simp [ha])]
      simp only [TrkSettled, Tracks, List.forall_mem_cons] at ih ⊢
      rw [he, ih]

end

end Silice
