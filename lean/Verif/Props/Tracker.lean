import Verif.Lemmas.Tracker

/-!
C72: expression trackers track their expressions.
-/

set_option autoImplicit false

namespace Silice

section
variable {V : Type}

/-- **C72**, partial. A unit is written with expression trackers; those that are accessed are sound (`TrkSound`). If what a tracker follows
is never assigned after the tracker was read, then the circuit settles, the wires it settles on are determined, and

* the code ends with what the source says, where a `<:` tracker has, at each read, the value of its expression at that moment
  and a `<::` tracker the value of its expression at the start of the cycle;
* at the end of the cycle the trackers carry their expressions.

Missing: assignments after the read, for which the claim is false (`C72_counterexample_late`). -/
theorem C72_tracked_partial (kind : String → Option TrkKind) (accessed : String → Bool) (deps : List String) (ts : List (Trk V))
    (xs : List (String × (V → V) × TTxt V)) (code : TCode V) (hdeps : ∀ x ∈ deps, kind x ≠ some .ff)
    (hwires : ∀ t ∈ ts, kind t.name = some .wire)
    (hheld : ∀ t ∈ ts, t.dbl = true → ∀ x, t.e.Reads x → kind x ≠ some .temp)
    (hs : TrkSound kind (ts.filter fun t => accessed t.name) code)
    (hl : NotLate kind (ts.filter fun t => accessed t.name) [] code) (hx : writeTrks kind accessed deps ts = some xs)
    (fx : TFix V) (tr : V → Bool) (q : String → V) :
    ∃ r, (∀ r', SrcTrk kind fx tr (ts.filter fun t => accessed t.name) q code q r' ↔ r' = r) ∧
      (∃ w, TrkSettled kind fx tr code xs q w) ∧
      ∀ w, TrkSettled kind fx tr code xs q w →
        code.run kind fx tr w q = r ∧ Tracks kind fx (ts.filter fun t => accessed t.name) q r w ∧
        ∀ w', TrkSettled kind fx tr code xs q w' → ∀ t ∈ ts, accessed t.name = true → w t.name = w' t.name := by
  obtain ⟨r, hr⟩ := src_exists (fx := fx) (tr := tr) (q := q) hs code q
  have key : ∀ w, TrkSettled kind fx tr code xs q w →
      code.run kind fx tr w q = r ∧ Tracks kind fx (ts.filter fun t => accessed t.name) q r w := by
    intro w hw
    have ht := (settled_iff ts deps xs hdeps hwires hheld hx).1 hw
    have e := srcTrk_unique hs (run_src hs ht code [] q hl hs.inCode fun _ _ => rfl) hs.inCode hr
    exact ⟨e, e ▸ ht⟩
  refine ⟨r, fun r' => ⟨fun h => srcTrk_unique hs h hs.inCode hr, fun e => e ▸ hr⟩, ?_, fun w hw => ⟨(key w hw).1, (key w hw).2, ?_⟩⟩
  · obtain ⟨w, hw⟩ := tracks_exist (fx := fx) (q := q) hs r
    refine ⟨w, (settled_iff ts deps xs hdeps hwires hheld hx).2 ?_⟩
    rw [src_run hs hw hr [] hl hs.inCode fun _ _ => rfl]
    exact hw
  · intro w' hw' t ht ha
    obtain ⟨rank, hrank⟩ := hs.noCycle
    exact tracks_agree hrank hs.inTrks (key w hw).2 (key w' hw').2 _ t (List.mem_filter.2 ⟨ht, by simpa using ha⟩) rfl fun _ _ => rfl

/-- **C72**, one cycle latency. In a cycle that starts with what the previous cycle ended with, a `<::` tracker whose operands are variables
and constants has the value of its expression at the end of the previous cycle, whatever the code of the cycle does: no
condition on the order of assignments is needed. -/
theorem C72_delayed (kind : String → Option TrkKind) (accessed : String → Bool) (deps : List String) (ts : List (Trk V))
    (xs : List (String × (V → V) × TTxt V)) (code : TCode V) (hdeps : ∀ x ∈ deps, kind x ≠ some .ff)
    (hwires : ∀ t ∈ ts, kind t.name = some .wire)
    (hheld : ∀ t ∈ ts, t.dbl = true → ∀ x, t.e.Reads x → kind x ≠ some .temp) (hx : writeTrks kind accessed deps ts = some xs)
    (t : Trk V) (ht : t ∈ ts) (ha : accessed t.name = true) (hd : t.dbl = true)
    (hops : ∀ x, t.e.Reads x → kind x = some .ff ∨ kind x = some .cst)
    (fx₀ fx : TFix V) (tr : V → Bool) (prev w : String → V) (hc : ∀ x, fx₀.cst x = fx.cst x)
    (hw : TrkSettled kind fx tr code xs prev w) (w₀ : String → V) :
    w t.name = t.cut (t.e.eval (codeVal kind fx₀ w₀ prev)) := by
  rw [(settled_iff ts deps xs hdeps hwires hheld hx).1 hw t (List.mem_filter.2 ⟨ht, by simpa using ha⟩), hd, if_pos rfl]
  congr 1
  refine t.e.eval_congr fun x hx => ?_
  rcases hops x hx with h | h <;> simp [codeVal, h, hc]

/-- **C72**, warnings. A `<::` tracker is warned about for exactly those operands, not written `:x`, that it does not delay: inputs,
outputs of instances and `<:` trackers. No other tracker is warned about. -/
theorem C72_warned (kind : String → Option TrkKind) (ts : List (Trk V)) (hn : (ts.map (·.name)).Nodup) (t : Trk V) (x : String) :
    (∃ m ∈ trkWarnings kind ts t, m.about = x) ↔ t.dbl = true ∧ (false, x) ∈ t.e.refs ∧ NotDelayed kind ts x := by
  unfold trkWarnings
  cases hd : t.dbl with
  | false => simp
  | true =>
    simp only [Bool.not_true, Bool.false_eq_true, if_false, List.mem_flatMap, true_and]
    have hfind : ∀ y, (∃ s, ts.find? (fun s => s.name == y) = some s ∧ s.dbl = false) ↔ ∃ s ∈ ts, s.name = y ∧ s.dbl = false := by
      intro y
      constructor
      · rintro ⟨s, hs, h⟩
        exact ⟨s, List.mem_of_find?_eq_some hs, by simpa using List.find?_some hs, h⟩
      · rintro ⟨s, hs, rfl, h⟩
        exact ⟨s, find_of_nodup hn hs, h⟩
    constructor
    · rintro ⟨m, ⟨⟨c, y⟩, hr, hm⟩, rfl⟩
      cases c with
      | true => simp at hm
      | false =>
        simp only [Bool.false_eq_true, if_false, List.mem_append] at hm
        rcases hm with (hm | hm) | hm
        · cases hf : ts.find? (fun s => s.name == y) with
          | none => rw [hf] at hm; simp at hm
          | some s =>
            rw [hf] at hm
            cases hsd : s.dbl with
            | true => simp [hsd] at hm
            | false =>
              simp [hsd] at hm
              subst hm
              exact ⟨hr, .inr (.inr ((hfind y).1 ⟨s, hf, hsd⟩))⟩
        · split at hm
          · rw [List.mem_singleton.1 hm]; exact ⟨hr, .inr (.inl ‹_›)⟩
          · simp at hm
        · split at hm
          · rw [List.mem_singleton.1 hm]; exact ⟨hr, .inl ‹_›⟩
          · simp at hm
    · rintro ⟨hr, h⟩
      rcases h with h | h | h
      · exact ⟨.input x, ⟨_, hr, by simp [h]⟩, rfl⟩
      · exact ⟨.bound x, ⟨_, hr, by simp [h]⟩, rfl⟩
      · obtain ⟨s, hs, hsd⟩ := (hfind x).2 h
        exact ⟨.tracker x, ⟨_, hr, by simp [hs, hsd]⟩, rfl⟩

/-- **C72**, what the warnings are for. If no `<::` tracker has an operand written `:x` and none is warned about, the `<::` trackers depend
on nothing but the constants and what the cycle started with: neither on the inputs and outputs of instances in this cycle nor
on what the code does. -/
theorem C72_unwarned (kind : String → Option TrkKind) (ts : List (Trk V)) (code : TCode V) (hs : TrkSound kind ts code)
    (hq : ∀ t ∈ ts, t.dbl = true → trkWarnings kind ts t = [] ∧ ∀ x, (true, x) ∉ t.e.refs)
    (fx fx' : TFix V) (hc : fx.cst = fx'.cst) (q cur cur' w w' : String → V)
    (h : Tracks kind fx ts q cur w) (h' : Tracks kind fx' ts q cur' w') :
    ∀ t ∈ ts, t.dbl = true → w t.name = w' t.name := by
  obtain ⟨rank, hr⟩ := hs.noCycle
  have key : ∀ (n : Nat) (t : Trk V), t ∈ ts → rank t.name = n → t.dbl = true → w t.name = w' t.name := by
    intro n
    induction n using Nat.strongRecOn with
    | ind n ih =>
      intro t ht hn hd
      rw [h t ht, h' t ht, hd, if_pos rfl, if_pos rfl]
      congr 1
      refine t.e.eval_congr fun x hx => ?_
      obtain ⟨c, hx'⟩ := hx
      have hc' : c = false := by
        cases c with
        | false => rfl
        | true => exact absurd hx' ((hq t ht hd).2 x)
      subst hc'
      have hnd : ¬ NotDelayed kind ts x := by
        intro hnd
        obtain ⟨m, hm, _⟩ := (C72_warned kind ts hs.names t x).2 ⟨hd, hx', hnd⟩
        rw [(hq t ht hd).1] at hm
        simp at hm
      have h1 : kind x ≠ some .input := fun e => hnd (.inl e)
      have h2 : kind x ≠ some .bound := fun e => hnd (.inr (.inl e))
      unfold codeVal
      cases hk : kind x with
      | none => rfl
      | some k =>
        cases k with
        | input => exact absurd hk h1
        | bound => exact absurd hk h2
        | cst => simp [hc]
        | wire =>
          obtain ⟨s, hsm, rfl⟩ := hs.inTrks t ht x ⟨_, hx'⟩ hk
          have hsd : s.dbl = true := by
            cases hsd : s.dbl with
            | true => rfl
            | false => exact absurd (.inr (.inr ⟨s, hsm, rfl, hsd⟩)) hnd
          exact ih _ (hn ▸ hr t ht _ ⟨_, hx'⟩ hk) s hsm rfl hsd
        | _ => rfl
  exact fun t ht hd => key _ t ht rfl hd

end

/-! ### Examples -/

/-- `uint8 t <: a + 1; uint8 s <:: a + t;` with a variable `a`, an output `o` and an input `i`. -/
def trkKindEx : String → Option TrkKind
  | "a" => some .ff
  | "o" => some .ff
  | "p" => some .ff
  | "i" => some .input
  | "t" => some .wire
  | "s" => some .wire
  | _ => none

def trkAdd (a b : Nat) : Nat := (a + b) % 256

def trkT : Trk Nat := ⟨"t", false, .app trkAdd (.ref false "a") (.lit 1), (· % 256)⟩
def trkS : Trk Nat := ⟨"s", true, .app trkAdd (.ref false "a") (.ref true "t"), (· % 256)⟩

/-- `a = 15; if (i) { o = t; } else { o = s; } p = s;` -/
def trkCodeEx : TCode Nat :=
  .asg "a" (.lit 15) (.ite (.ref false "i") (.asg "o" (.ref false "t") .nil) (.asg "o" (.ref false "s") .nil) (.asg "p" (.ref false "s") .nil))

def trkFxEx : TFix Nat := ⟨fun _ => 1, fun _ => 0, fun _ => 0⟩

/-- `o = t; a = 5;` -/
def trkLateEx : TCode Nat := .asg "o" (.ref false "t") (.asg "a" (.lit 5) .nil)

theorem trk_follows_ex {n y : String} (h : Follows trkKindEx [trkT, trkS] n y) : y = "a" := by
  induction h with
  | here t y ht hd hr hk =>
    obtain ⟨c, hr⟩ := hr
    rcases List.mem_cons.1 ht with rfl | ht
    · simp [trkT, TExp.refs] at hr; exact hr.2
    · rw [List.mem_singleton.1 ht] at hd; simp [trkS] at hd
  | through _ _ _ _ _ _ _ ih => exact ih

theorem trk_sound_ex (code : TCode Nat) (hc : ∀ x, code.Reads x → trkKindEx x = some .wire → x = "t" ∨ x = "s") :
    TrkSound trkKindEx [trkT, trkS] code where
  names := by decide
  wires := by decide
  inCode := by
    intro x hx hk
    rcases hc x hx hk with rfl | rfl
    · exact ⟨trkT, by simp, rfl⟩
    · exact ⟨trkS, by simp, rfl⟩
  inTrks := by
    intro t ht x hr hk
    obtain ⟨c, hr⟩ := hr
    refine ⟨trkT, by simp, ?_⟩
    rcases List.mem_cons.1 ht with rfl | ht
    · simp [trkT, TExp.refs] at hr
      rw [hr.2] at hk; cases hk
    · rw [List.mem_singleton.1 ht] at hr
      simp [trkS, TExp.refs] at hr
      rcases hr with ⟨_, rfl⟩ | ⟨_, rfl⟩
      · cases hk
      · rfl
  noCycle := by
    refine ⟨fun x => if x = "s" then 1 else 0, ?_⟩
    intro t ht x hr hk
    obtain ⟨c, hr⟩ := hr
    rcases List.mem_cons.1 ht with rfl | ht
    · simp [trkT, TExp.refs] at hr
      rw [hr.2] at hk; cases hk
    · rw [List.mem_singleton.1 ht] at hr ⊢
      simp [trkS, TExp.refs] at hr
      rcases hr with ⟨_, rfl⟩ | ⟨_, rfl⟩
      · cases hk
      · decide
  held := by
    intro t ht _ x hr
    obtain ⟨c, hr⟩ := hr
    rcases List.mem_cons.1 ht with rfl | ht
    · simp [trkT, TExp.refs] at hr
      rw [hr.2]; decide
    · rw [List.mem_singleton.1 ht] at hr
      simp [trkS, TExp.refs] at hr
      rcases hr with ⟨_, rfl⟩ | ⟨_, rfl⟩ <;> decide

theorem trk_sound_code : TrkSound trkKindEx [trkT, trkS] trkCodeEx := by
  refine trk_sound_ex _ fun x hx hk => ?_
  simp only [trkCodeEx, TCode.Reads, TExp.Reads, TExp.refs, List.mem_singleton, Prod.mk.injEq, List.not_mem_nil, exists_false, or_false,
    false_or] at hx
  rcases hx with ⟨_, _, rfl⟩ | ⟨_, _, rfl⟩ | ⟨_, _, rfl⟩ | ⟨_, _, rfl⟩
  · cases hk
  · exact .inl rfl
  · exact .inr rfl
  · exact .inr rfl

theorem trk_notLate_code : NotLate trkKindEx [trkT, trkS] [] trkCodeEx := by
  have no : ∀ (e : TExp Nat) (l : List String), "a" ∉ l → TrkClear trkKindEx [trkT, trkS] e l :=
    fun e l hl n _ _ y hy => trk_follows_ex hy ▸ hl
  have lit : TrkClear trkKindEx [trkT, trkS] (.lit 15 : TExp Nat) ["a", "o", "o", "p"] := by
    intro n hn
    obtain ⟨c, hn⟩ := hn
    simp [TExp.refs] at hn
  exact ⟨lit, no _ _ (by decide), ⟨no _ _ (by decide), trivial⟩, ⟨no _ _ (by decide), trivial⟩, no _ _ (by decide), trivial⟩

/-- The hypotheses of `C72_tracked_partial` are met by a unit with both kinds of trackers and a conditional. -/
example : ∃ xs, writeTrks trkKindEx (fun _ => true) [] [trkT, trkS] = some xs ∧
    TrkSound trkKindEx ([trkT, trkS].filter fun _ => true) trkCodeEx ∧ NotLate trkKindEx ([trkT, trkS].filter fun _ => true) [] trkCodeEx :=
  ⟨_, rfl, trk_sound_code, trk_notLate_code⟩

/-- There, starting from `a = 3`: `t` is 16, `s` is 3 + 16. -/
example (xs : List (String × (Nat → Nat) × TTxt Nat)) (hxs : writeTrks trkKindEx (fun _ => true) [] [trkT, trkS] = some xs) :
    ∃ w, TrkSettled trkKindEx trkFxEx (· != 0) trkCodeEx xs (fun _ => 3) w ∧
    trkCodeEx.run trkKindEx trkFxEx (· != 0) w (fun _ => 3) "o" = 16 ∧
    trkCodeEx.run trkKindEx trkFxEx (· != 0) w (fun _ => 3) "p" = 19 := by
  cases hxs
  refine ⟨fun x => if x = "t" then 16 else 19, ?_, by decide +kernel, by decide +kernel⟩
  intro x hx
  have : x.1 = "t" ∧ x.2.2 = .app trkAdd (.tok (.d "a")) (.lit 1) ∧ x.2.1 = (· % 256) ∨
      x.1 = "s" ∧ x.2.2 = .app trkAdd (.tok (.q "a")) (.tok (.w "t")) ∧ x.2.1 = (· % 256) := by
    rcases List.mem_cons.1 hx with rfl | hx
    · exact .inl ⟨rfl, rfl, rfl⟩
    · rw [List.mem_singleton.1 hx]
      exact .inr ⟨rfl, rfl, rfl⟩
  rcases this with ⟨h1, h2, h3⟩ | ⟨h1, h2, h3⟩ <;> rw [h1, h2, h3] <;> decide +kernel

/-- The operand `i` of `uint8 u <:: i + a;` is warned about, unless it is written `:i`. -/
example : trkWarnings trkKindEx [trkT] (⟨"s", true, .app trkAdd (.ref false "i") (.ref false "a"), id⟩ : Trk Nat) = [.input "i"] ∧
    trkWarnings trkKindEx [trkT] (⟨"s", true, .app trkAdd (.ref true "i") (.ref false "t"), id⟩ : Trk Nat) = [.tracker "t"] := by
  decide +kernel

/-- **C72**, counterexample. `uint8 t <: a + 1; … o = t; a = 5;`, a cycle starting with `a = 3`: the source gives `o` the value 4 that the
expression has when `t` is read, the circuit settles only with `o = 6`. -/
theorem C72_counterexample_late (xs : List (String × (Nat → Nat) × TTxt Nat))
    (hx : writeTrks trkKindEx (fun _ => true) [] [trkT] = some xs) :
    (∀ r, SrcTrk trkKindEx trkFxEx (· != 0) [trkT] (fun _ => 3) trkLateEx (fun _ => 3) r → r "o" = 4) ∧
    (∃ w, TrkSettled trkKindEx trkFxEx (· != 0) trkLateEx xs (fun _ => 3) w) ∧
    ∀ w, TrkSettled trkKindEx trkFxEx (· != 0) trkLateEx xs (fun _ => 3) w →
      trkLateEx.run trkKindEx trkFxEx (· != 0) w (fun _ => 3) "o" = 6 := by
  cases hx
  refine ⟨?_, ⟨fun _ => 6, ?_⟩, ?_⟩
  · intro r h
    cases h with
    | asg _ _ _ _ w _ hw h =>
      cases h with
      | asg _ _ _ _ w' _ hw' h =>
        cases h
        have := hw trkT (by simp)
        have e : w "t" = 4 := this
        show w "t" = 4
        exact e
  · intro x hx
    rw [List.mem_singleton.1 hx]
    decide +kernel
  · intro w hw
    have := hw _ (List.mem_singleton.2 rfl)
    have e : w "t" = 6 := this
    show w "t" = 6
    exact e

/-- **C72**, counterexample. The error meant for such assignments, "variable assignement changes the value of a <: tracked expression that was
assigned before", is never reported: not for any unit, dependencies and assigned variable. -/
theorem C72_counterexample_never_reported (isWire : String → Bool) (wires : List String) (hw : ∀ x ∈ wires, isWire x = true)
    (deps : List (String × List String)) (w : String) : lateReported isWire wires deps w = false := by
  unfold lateReported
  rw [List.any_eq_false]
  intro x hx
  cases deps.find? (fun d => d.1 == x) with
  | none => simp
  | some d => simp [hw x hx]

/-- There is such a unit: `t` depends on `a`, `o` depends on `t`, and `a` is assigned. -/
example : (∀ x ∈ ["t"], (fun y => y == "t") x = true) ∧ lateReported (fun y => y == "t") ["t"] [("t", ["a"]), ("o", ["t", "a"])] "a" = false ∧
    lateReported (fun _ => false) ["t"] [("t", ["a"]), ("o", ["t", "a"])] "a" = true := by decide +kernel

end Silice
