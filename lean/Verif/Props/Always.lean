import Verif.Lemmas.AlwaysUnit
import Verif.Props.GatherTime
import Verif.Spec.Always

/-!
C54: always blocks are executed entirely in each cycle, and code that takes several cycles is rejected.
-/

set_option autoImplicit false

namespace Silice

/-- C54: an always block is accepted exactly when its statements fit in one cycle: no `++:`, loop, `break`, call, wait or `return`, at any depth. -/
theorem C54_accepted_partial (tops asg : List Nat) (p : Prg) : (∃ r, buildAlways tops asg (some p) = some r) ↔ p.stateless = true := by
  constructor
  · rintro ⟨⟨last, st⟩, h⟩
    exact (buildAlways_some.mp h).2
  · intro h
    obtain ⟨⟨l, st⟩, hb⟩ := stateless_builds (.block p .nil) (by simp [Prg.stateless, h]) none 0 (alwaysStart tops asg)
    rw [build_block_nil] at hb
    exact ⟨_, buildAlways_some.mpr ⟨hb, h⟩⟩

example : (Prg.instr 1 (.ifThen 2 (.switch 3 [(some 0, .instr 4 .nil), (none, .nil)] .nil) .nil)).stateless = true := by decide +kernel

/-- Instructions first, then the rest. -/
theorem Runs.of_foldr {σ : Type} {M : Meaning σ} {k : Prg} : ∀ (asg : List Nat) (s : σ) (es : List Did) (s1 : σ), Runs M (asg.foldr .instr k) s es s1 →
    ∃ es', es = insDids (asg.map .plain) ++ es' ∧ Runs M k (M.all (insDids (asg.map .plain)) s) es' s1
  | [], s, es, s1, h => ⟨es, rfl, h⟩
  | i :: asg, s, es, s1, h => by
    cases h with
    | instr h =>
      obtain ⟨es', rfl, h'⟩ := Runs.of_foldr asg _ _ _ h
      exact ⟨es', rfl, h'⟩

theorem foldr_stateless (k : Prg) (hk : k.stateless = true) : ∀ asg : List Nat, (asg.foldr Prg.instr k).stateless = true
  | [] => hk
  | _ :: asg => by rw [List.foldr_cons, Prg.stateless]; exact foldr_stateless k hk asg

theorem alwaysSource_stateless {tops asg : List Nat} {p : Option Prg} {r : Nat × PSt} (h : buildAlways tops asg p = some r) :
    (alwaysSource asg p).stateless = true := by
  cases p with
  | none => exact foldr_stateless .nil rfl asg
  | some p =>
    refine foldr_stateless _ ?_ asg
    rw [Prg.stateless, (buildAlways_some.mp h).2]
    rfl

/-- What is known of the code of an always block: it does not touch the control registers and executes the source. -/
structure AlwaysCode (st : PSt) (last : Nat) (asg : List Nat) (p : Option Prg) (code : Code (Fin (last + 1))) : Prop where
  stays : code.stays
  shaped : code.shaped
  run : ∀ {σ : Type} (M : Meaning σ) (s : σ) (es : List Did) (s1 : σ), Runs M (alwaysSource asg p) s es s1 →
    ∀ ctl, ∃ tr, code.run (M.sem fun b : Fin (last + 1) => (st.blk b).ins) ⟨[], s, ctl⟩ = ⟨tr, s1, ctl⟩ ∧
      tr.flatMap (fun b : Fin (last + 1) => insDids (st.blk b).ins) = es ∧
      ∃ tr0, tr = tr0 ++ [Fin.ofNat (last + 1) last] ∧
        (tr0 = [] ∧ last = 0 ∨ Steps (st.cfg last) (Fin.ofNat (last + 1) 0) tr0 (Fin.ofNat (last + 1) last))

theorem always_code {tops asg : List Nat} {p : Option Prg} {last : Nat} {st : PSt} (h : buildAlways tops asg p = some (last, st)) :
    ∃ f0 code, (∀ fuel, f0 ≤ fuel → alwaysCode st last fuel = some code) ∧ AlwaysCode st last asg p code := by
  have O : Over st.blk (Fin.ofNat (last + 1)) (last + 1) (st.cfg last) := cfg_over
  have hst : ∀ n, n < last + 1 → ((st.cfg last).blk (Fin.ofNat (last + 1) n)).isState = (st.blk n).isState := fun n hn => by rw [cfg_blk n hn]
  have hval : ∀ n, n < last + 1 → ((Fin.ofNat (last + 1) n : Fin (last + 1)) : Nat) = n := fun n hn => Nat.mod_eq_of_lt hn
  have hins : ∀ n, n < last + 1 → (fun b : Fin (last + 1) => (st.blk b).ins) (Fin.ofNat (last + 1) n) = (st.blk n).ins := fun n hn => by
    simp only [hval n hn]
  -- the end
  have hend : (st.blk last).act = .stop → (st.blk last).isState = false → ∀ stop fuel, 1 ≤ fuel →
      emitFrom (st.cfg last) ⟨fun _ => none, fun _ => none⟩ fuel stop (Fin.ofNat (last + 1) last) =
        some (.seq (.body (Fin.ofNat (last + 1) last)) .halt) := by
    intro h1 h2 stop fuel hf
    obtain ⟨fuel, rfl⟩ : ∃ e, fuel = e + 1 := ⟨fuel - 1, by omega⟩
    rw [emitFrom]
    have : ((st.cfg last).blk (Fin.ofNat (last + 1) last)).act = .stop := by rw [O.act last (by omega), h1]; rfl
    simp only [this]
  cases p with
  | none =>
    simp only [buildAlways, Option.some.injEq, Prod.mk.injEq] at h
    obtain ⟨rfl, rfl⟩ := h
    have e0 : (alwaysStart tops asg).blk 0 = { ins := asg.map .plain } := by rw [alwaysStart_eq]; rfl
    refine ⟨1, .seq (.body (Fin.ofNat 1 0)) .skip, fun fuel hf => ?_, ⟨trivial, trivial⟩, ⟨trivial, trivial, trivial⟩, ?_⟩
    · rw [alwaysCode, hend (by rw [e0]) (by rw [e0]) none fuel hf]
      rfl
    · intro σ M s es s1 hr ctl
      obtain ⟨es', rfl, hr'⟩ := Runs.of_foldr _ _ _ _ hr
      cases hr'
      refine ⟨[Fin.ofNat 1 0], ?_, ?_, [], rfl, .inl ⟨rfl, rfl⟩⟩
      · simp [Code.run, Meaning.sem, e0]
      · simp [e0]
  | some p =>
    obtain ⟨hb, hs⟩ := buildAlways_some.mp h
    have A := always_frag hb
    have hpos := A.pos
    have hfrag := A.frag
    -- the frame of the block: the inner statements go on to the last block
    cases hfrag with
    | @block _ _ _ _ _ _ _ _ m x hpre ha hs1 f1 ha' hs2 f2 hz =>
      cases f2 with
      | nil hpre2 =>
        have hstop := A.stop
        obtain ⟨f0, code, c1, w⟩ := frag_writes (num := ⟨fun _ => none, fun _ => none⟩)
          (ins := fun b : Fin (last + 1) => (st.blk b).ins) f1 O hst hins (fun _ => rfl) hs (by omega) (by omega) last none
          (.seq (.body (Fin.ofNat (last + 1) last)) .halt) ha' (by omega) (fun _ _ _ h => by cases h) ⟨1, fun fu hfu => by
            rw [contC, hst last (by omega), hstop, if_neg (by simp), if_neg (by simp)]
            exact hend (by rw [hstop]) (by rw [hstop]) none fu hfu⟩
        have hgo := O.goto (by omega : 0 < last + 1) ha
        refine ⟨f0 + 1, (Code.seq (.body (Fin.ofNat (last + 1) 0)) code).noHalt, fun fuel hf => ?_, ?_, ?_, ?_⟩
        · rw [alwaysCode, emit_goto hgo (f0 := f0) (X := code) (fun fu hfu => ?_) fuel hf]
          · rfl
          · rw [contC, hst 1 (by omega), hs1, stateless_noRet hs, if_neg (by simp), if_neg (by simp)]
            exact c1 fu hfu
        · exact ⟨trivial, w.stays ⟨trivial, trivial⟩⟩
        · exact ⟨trivial, trivial, w.shaped ⟨trivial, trivial, trivial⟩⟩
        · intro σ M s es s1 hr ctl
          obtain ⟨es', rfl, hr'⟩ := Runs.of_foldr _ _ _ _ hr
          cases hr' with
          | @block _ _ _ s2 _ e1 e2 r1 r2 =>
            cases r2
            obtain ⟨tr, t1, t2, t3⟩ := w.run M (M.all (insDids (asg.map .plain)) s) e1 s1 r1 [Fin.ofNat (last + 1) 0] ctl
            refine ⟨Fin.ofNat (last + 1) 0 :: (tr ++ [Fin.ofNat (last + 1) last]), ?_, ?_, Fin.ofNat (last + 1) 0 :: tr, rfl, .inr (.cons ?_ t1)⟩
            · have : ∀ z, (Code.seq (Code.body (Fin.ofNat (last + 1) 0)) code).noHalt.run (M.sem fun b : Fin (last + 1) => (st.blk b).ins) z =
                  code.noHalt.run (M.sem fun b : Fin (last + 1) => (st.blk b).ins) ((Code.body (Fin.ofNat (last + 1) 0)).run
                    (M.sem fun b : Fin (last + 1) => (st.blk b).ins) z) := fun _ => rfl
              rw [this]
              have e : (Code.body (Fin.ofNat (last + 1) 0)).run (M.sem fun b : Fin (last + 1) => (st.blk b).ins) ⟨[], s, ctl⟩ =
                  ⟨[Fin.ofNat (last + 1) 0], M.all (insDids (asg.map .plain)) s, ctl⟩ := by
                simp only [Code.run, Meaning.sem, hval 0 (by omega), hpre]
                rfl
              rw [e, t2]
              simp only [Code.noHalt, Code.run, Meaning.sem, hval last (by omega), hstop]
              simp [insDids, Meaning.all]
            · rw [List.flatMap_cons, List.flatMap_append, t3]
              simp [hpre, hstop, insDids]
            · simp only [Cfg.children, hgo, List.mem_singleton]

/-- C54: whatever instructions and conditions do, the code written for an always block executes in each cycle exactly the statements of the source,
in order (first the `x := e`, then the block), and gives the data they give; the state of the algorithm is not touched. The writing of the code
ends, and the result does not depend on how far the model lets it go. -/
theorem C54_executed_partial (tops asg : List Nat) (p : Option Prg) (last : Nat) (st : PSt) (h : buildAlways tops asg p = some (last, st)) :
    ∃ f0 code, (∀ fuel, f0 ≤ fuel → alwaysCode st last fuel = some code) ∧
      ∀ (σ : Type) (M : Meaning σ) (s : σ), ∃ es s1, Runs M (alwaysSource asg p) s es s1 ∧
        ∀ ctl, ∃ tr, code.run (M.sem fun b : Fin (last + 1) => (st.blk b).ins) ⟨[], s, ctl⟩ = ⟨tr, s1, ctl⟩ ∧
          tr.flatMap (fun b : Fin (last + 1) => insDids (st.blk b).ins) = es := by
  obtain ⟨f0, code, h1, h2⟩ := always_code h
  refine ⟨f0, code, h1, fun σ M s => ?_⟩
  obtain ⟨es, s1, hr⟩ := runs_total M _ (alwaysSource_stateless h) s
  refine ⟨es, s1, hr, fun ctl => ?_⟩
  obtain ⟨tr, t1, t2, _⟩ := h2.run M s es s1 hr ctl
  exact ⟨tr, t1, t2⟩

/-- Non-vacuity: `a := 7;` and an always block with a conditional and a switch. -/
def exAlways : Prg := .instr 1 (.ifElse 2 (.switch 3 [(some 0, .instr 4 .nil), (none, .nil)] .nil) (.instr 5 .nil) (.instr 6 .nil))

example : ∃ last st, buildAlways [] [7] (some exAlways) = some (last, st) := by
  have h : (buildAlways [] [7] (some exAlways)).isSome = true := by decide +kernel
  obtain ⟨⟨last, st⟩, h⟩ := Option.isSome_iff_exists.mp h
  exact ⟨last, st, h⟩

/-- The full claim (every always block that is accepted is executed) fails for the older syntax: of two always blocks only the last is executed. -/
theorem C54_counterexample_legacy : ∃ last st code, buildAlwaysLegacy [] [] [.instr 1 .nil, .instr 2 .nil] = some (last, st) ∧
    alwaysCode st last 10 = some code ∧ ∀ (σ : Type) (M : Meaning σ) (s : σ) (ctl : Option (Out (Fin (last + 1)))),
      (code.run (M.sem fun b : Fin (last + 1) => (st.blk b).ins) ⟨[], s, ctl⟩).data = M.instr 2 s := by
  refine ⟨4, _, _, rfl, rfl, fun σ M s ctl => rfl⟩

/-- And there code that takes several cycles is accepted. -/
theorem C54_counterexample_legacy_accepted : (buildAlwaysLegacy [] [] [.instr 1 (.step (.instr 2 .nil))]).isSome = true := by decide +kernel

end Silice
