import Verif.Lemmas.Permission

/-!
# C76: subroutines access only what they were given

What a subroutine may access is in Spec/Permission.lean. The full claim is `OnlyPermitted`.
-/

set_option autoImplicit false

namespace Silice

/-- When no warning is given, all that subroutines carry out, in any cycle of any run, accesses only what they may: in `Respects`, `blk` gives the
text held by blocks. -/
def OnlyPermitted {B : Type} [DecidableEq B] (g : Cfg B) (ff : B → B) (num : Num B) (blk : B → PBlk) (h : SubHost) (ds : List SubDecl) (A : AccessOf)
    (blocks : List B) (entries : List (Entry B)) : Prop :=
  checkPermissions h ds num blk A blocks = .ok [] →
    ∀ (σ : Type) (S : Sem B σ) (env : Nat → σ → σ) (h0 : HW σ) (n : Nat) (trs : List (List B)) (hw : HW σ),
      hwRun g num ff (callIdsFrom g 0 blocks) entries S env h0 n = some (trs, hw) →
      ∀ tr ∈ trs, ∀ b ∈ tr, ∀ k d, (blk b).sub = some k → ds[k]? = some d → Respects h d A (blk b)

/-- C76: the tables of permissions are what the declaration of the subroutine gives, members of groups included, with its own variables and
parameters, and the inputs and outputs of what it may call. -/
theorem C76_tables (h : SubHost) (d : SubDecl) (p : SubPerms) (e : d.perms h = .ok p) :
    (∀ x, x ∈ p.reads ↔ MayRead h d x) ∧ (∀ x, x ∈ p.writes ↔ MayWrite h d x) := perms_spec e

/-- C76: the declaration is refused only when it names, among what may be called, something that does not exist. -/
theorem C76_unknown_calls (h : SubHost) (d : SubDecl) :
    (∃ f, d.perms h = .error (.unknown f)) ↔ ∃ f, .calls f ∈ d.params ∧ h.callee f = none := by
  rw [SubDecl.perms, addCalls_error]
  exact exists_congr fun f => and_congr_left' calls_mem

/-- `subroutine f(reads a, writes g, calls h, input uint8 v, output uint8 w) { uint8 t = 0; ... }`, `g` a group with members `x`, `y`. -/
def exPermDecl : SubDecl := ⟨"f", [.reads "a", .writes "g", .calls "h", .input "v", .output "w"], ["t"]⟩

/-- What is around it. -/
def exPermHost : SubHost :=
  ⟨fun g => if g = "g" then some ["x", "y"] else none, fun f => if f = "h" then some (["i_h_p"], ["o_h_q"]) else none⟩

example : (match exPermDecl.perms exPermHost with | .ok p => some (p.reads, p.writes) | .error _ => none) =
    some (["a", "i_f_v", "o_f_w", "t", "o_h_q"], ["g", "g_x", "g_y", "o_f_w", "t", "i_h_p"]) := by decide +kernel

example : (match SubDecl.perms exPermHost ⟨"f", [.calls "h", .calls "k"], []⟩ with | .error e => some e | .ok _ => none) = some (.unknown "k") := by
  decide +kernel

/-- C76: a warning is given only for an access that is not permitted, made by the subroutine it names. -/
theorem C76_warnings_right {B : Type} (h : SubHost) (ds : List SubDecl) (num : Num B) (blk : B → PBlk) (A : AccessOf) (blocks : List B)
    (ws : List PermWarn) (e : checkPermissions h ds num blk A blocks = .ok ws) (w : PermWarn) (hw : w ∈ ws) :
    ∃ d, ds[w.sub]? = some d ∧ (w.write = false → ¬ MayRead h d w.var) ∧ (w.write = true → ¬ MayWrite h d w.var) ∧
      ∃ b ∈ blocks, (blk b).sub = some w.sub ∧
        ((∃ i ∈ (blk b).ins, w.var ∈ if w.write then A.writes i else A.reads i) ∨
          (w.write = false ∧ ∃ c, TestOf c (blk b).act ∧ w.var ∈ A.test c)) := by
  unfold checkPermissions at e
  cases et : ds.mapM (SubDecl.perms h) with
  | error x => rw [et] at e; cases e
  | ok ps =>
    rw [et] at e
    cases e
    unfold checkBlocks at hw
    obtain ⟨b, hb, hw⟩ := List.mem_flatMap.mp hw
    split_ifs at hw with hn
    · cases hw
    · cases hs : (blk b).sub with
      | none => rw [hs] at hw; cases hw
      | some k =>
        rw [hs] at hw
        simp only at hw
        cases hp : ps[k]? with
        | none => rw [hp] at hw; cases hw
        | some p =>
          rw [hp] at hw
          obtain ⟨d, hd, hdp⟩ := (permTable et k).2 p hp
          obtain ⟨s1, s2⟩ := perms_spec hdp
          have key : w.sub = k ∧ ((w.write = false ∧ w.var ∉ p.reads) ∨ (w.write = true ∧ w.var ∉ p.writes)) ∧
              ((∃ i ∈ (blk b).ins, w.var ∈ if w.write then A.writes i else A.reads i) ∨
                (w.write = false ∧ ∃ c, TestOf c (blk b).act ∧ w.var ∈ A.test c)) := by
            unfold blockWarnings at hw
            rcases List.mem_append.mp hw with hw | hw
            · obtain ⟨i, hi, hw⟩ := List.mem_flatMap.mp hw
              obtain ⟨h1, (⟨h2, h3, h4⟩ | ⟨h2, h3, h4⟩)⟩ := permWarnings_mem.mp hw
              · exact ⟨h1, .inl ⟨h2, h4⟩, .inl ⟨i, hi, by rw [h2]; exact h3⟩⟩
              · exact ⟨h1, .inr ⟨h2, h4⟩, .inl ⟨i, hi, by rw [h2]; exact h3⟩⟩
            · cases hc : (blk b).act.cond with
              | none => rw [hc] at hw; cases hw
              | some c =>
                rw [hc] at hw
                obtain ⟨h1, (⟨h2, h3, h4⟩ | ⟨h2, h3, h4⟩)⟩ := permWarnings_mem.mp hw
                · exact ⟨h1, .inl ⟨h2, h4⟩, .inr ⟨h2, c, testOf_iff.mp hc, h3⟩⟩
                · cases h3
          obtain ⟨rfl, h2, h3⟩ := key
          refine ⟨d, hd, fun hf hm => ?_, fun ht hm => ?_, b, hb, hs, h3⟩
          · rcases h2 with ⟨_, h2⟩ | ⟨h2, _⟩
            · exact h2 ((s1 _).mpr hm)
            · rw [hf] at h2; cases h2
          · rcases h2 with ⟨h2, _⟩ | ⟨_, h2⟩
            · rw [ht] at h2; cases h2
            · exact h2 ((s2 _).mpr hm)

/-- When no warning is given, blocks with a state number access only what is permitted. -/
theorem checked_block {B : Type} {h : SubHost} {ds : List SubDecl} {num : Num B} {blk : B → PBlk} {A : AccessOf} {blocks : List B}
    (e : checkPermissions h ds num blk A blocks = .ok []) {b : B} (hb : b ∈ blocks) (hn : (num.sid b).isSome = true) {k : Nat} {d : SubDecl}
    (hs : (blk b).sub = some k) (hd : ds[k]? = some d) : Respects h d A (blk b) := by
  unfold checkPermissions at e
  cases et : ds.mapM (SubDecl.perms h) with
  | error x => rw [et] at e; cases e
  | ok ps =>
    rw [et] at e
    simp only [Except.ok.injEq] at e
    obtain ⟨p, hp, hdp⟩ := (permTable et k).1 d hd
    obtain ⟨s1, s2⟩ := perms_spec hdp
    unfold checkBlocks at e
    have hbw := (List.flatMap_eq_nil_iff.mp e) b hb
    have hn' : ¬ (num.sid b).isNone = true := by cases hx : num.sid b <;> simp_all
    rw [if_neg hn', hs] at hbw
    simp only [hp] at hbw
    unfold blockWarnings at hbw
    obtain ⟨h1, h2⟩ := List.append_eq_nil_iff.mp hbw
    rw [List.flatMap_eq_nil_iff] at h1
    refine ⟨fun i hi => ⟨fun x hx => ?_, fun x hx => ?_⟩, fun c hc x hx => ?_⟩
    · by_contra hno
      have : (⟨k, x, false⟩ : PermWarn) ∈ permWarnings k p (A.reads i) (A.writes i) :=
        permWarnings_mem.mpr ⟨rfl, .inl ⟨rfl, hx, fun hm => hno ((s1 x).mp hm)⟩⟩
      rw [h1 i hi] at this; cases this
    · by_contra hno
      have : (⟨k, x, true⟩ : PermWarn) ∈ permWarnings k p (A.reads i) (A.writes i) :=
        permWarnings_mem.mpr ⟨rfl, .inr ⟨rfl, hx, fun hm => hno ((s2 x).mp hm)⟩⟩
      rw [h1 i hi] at this; cases this
    · rw [testOf_iff.mpr hc] at h2
      by_contra hno
      have : (⟨k, x, false⟩ : PermWarn) ∈ permWarnings k p (A.test c) [] :=
        permWarnings_mem.mpr ⟨rfl, .inl ⟨rfl, hx, fun hm => hno ((s1 x).mp hm)⟩⟩
      simp only at h2
      rw [h2] at this; cases this

/-- C76, partial: when no warning is given, in every cycle of every run what a subroutine carries out first (up to the first conditional or nested
block, and the condition) accesses only what is permitted. Missing: what it carries out next in the same cycle, see
`C76_counterexample_unchecked`. -/
theorem C76_first_partial (u : AlgUnit) (last : Nat) (st : PSt) (ff : Cfg (Fin (last + 1)) → Fin (last + 1) → Fin (last + 1))
    (hff : Skips ff) (hu : buildUnit u = some (last, st)) (hok : u.switchOk = true) (h : SubHost) (ds : List SubDecl) (A : AccessOf) :
    ∃ g rs, generateStates (st.cfg last) 0 ff (last + 1) (List.finRange (last + 1)) = some (g, rs) ∧
      ∃ efuel fuel entries, emitStates g rs.num (ff g) efuel fuel = .ok entries ∧
        (checkPermissions h ds rs.num (fun b => st.blk b.val) A (List.finRange (last + 1)) = .ok [] →
          ∀ (σ : Type) (S : Sem (Fin (last + 1)) σ) (env : Nat → σ → σ) (h0 : HW σ) (n : Nat) (trs : List (List (Fin (last + 1)))) (hw : HW σ),
            hwRun g rs.num (ff g) (callIdsFrom g 0 (List.finRange (last + 1))) entries S env h0 n = some (trs, hw) →
            ∀ tr ∈ trs, ∀ b, tr.head? = some b → ∀ k d, (st.blk b.val).sub = some k → ds[k]? = some d → Respects h d A (st.blk b.val)) := by
  obtain ⟨n0, l, lo, g, rs, h1, U, M, hff0, hff1, P, hlast, hid, ef, fu, es, he, m⟩ := unit_machine u last st ff hff hu hok
  refine ⟨g, rs, h1, ef, fu, es, he, fun hc σ S env h0 n trs hw hr tr htr b hb k d hs hd => ?_⟩
  exact checked_block hc (List.mem_finRange b) (hwRun_heads m _ S env h0 n trs hw hr tr htr b hb) hs hd

/-- C76: calls of subroutines: the warnings given for the text of a subroutine are those for the calls, wherever they are, that are not permitted. -/
theorem C76_calls (name : Nat → String) (d : SubDecl) (body : Prg) (f : String) :
    f ∈ callWarnings name d.calls body ↔ ∃ s, CallsIn s body ∧ name s = f ∧ .calls f ∉ d.params := by
  rw [callWarnings_mem]
  exact exists_congr fun s => and_congr_right' (and_congr_right' (not_congr calls_mem))

example : callWarnings (fun s => if s = 0 then "h" else "k") exPermDecl.calls
    (.call 0 1 2 false <| .ifThen 0 (.call 1 3 4 false .nil) <| .loop 1 (.call 0 5 6 false .nil) .nil) = ["k"] := by decide +kernel

/-! ### What is not checked -/

/-- `subroutine f(reads c) { if (c) { a = 1; } }`, called by the algorithm; instruction 7 is the assignment. -/
def exPerm : AlgUnit where
  globals := [.ifThen 0 (.instr 7 .nil) .nil]
  locals := []
  main := .call 0 1 2 false .nil

/-- The subroutine may read `c`. -/
def exPermSubs : List SubDecl := [⟨"f", [.reads "c"], []⟩]

/-- What is accessed. -/
def exPermAccess : AccessOf := ⟨fun _ => [], fun i => if i = .plain 7 then ["a"] else [], fun _ => ["c"]⟩

/-- The text of its blocks. -/
def exPermBlk (b : Fin 10) : PBlk :=
  match buildUnit exPerm with
  | some (_, st) => st.blk b.val
  | none => {}

/-- Its graph. -/
def exPermCfg : Cfg (Fin 10) :=
  match buildUnit exPerm with
  | some (_, st) => st.cfg 9
  | none => ⟨fun _ => {}, 0, 0, fun _ => []⟩

/-- Skipping on that graph. -/
def exPermFF (b : Fin 10) : Fin 10 := b

/-- Its numbers. -/
def exPermNum : Num (Fin 10) :=
  match generateStates exPermCfg 0 (fun _ => exPermFF) 10 (List.finRange 10) with
  | some r => r.2.num
  | none => ⟨fun _ => none, fun _ => none⟩

/-- Its code. -/
def exPermCode : List (Entry (Fin 10)) :=
  match emitStates exPermCfg exPermNum exPermFF 40 80 with
  | .ok es => es
  | .error _ => []

/-- The hypotheses of `C76_first_partial` hold for the same program; no warning is given. -/
example : (buildUnit exPerm).map (·.1) = some 9 ∧ exPerm.switchOk = true ∧
    (match checkPermissions exPermHost exPermSubs exPermNum exPermBlk exPermAccess (List.finRange 10) with
      | .ok ws => some ws | .error _ => none) = some [] := by
  refine ⟨?_, ?_, ?_⟩ <;> decide +kernel

/-- Warnings are given when the condition may not be read. -/
example : (match checkPermissions exPermHost [⟨"f", [.reads "b"], []⟩] exPermNum exPermBlk exPermAccess (List.finRange 10) with
      | .ok ws => some ws | .error _ => none) = some [⟨0, "c", false⟩] := by
  decide +kernel

/-- The condition holds. -/
def exPermSem : Sem (Fin 10) Unit := ⟨fun _ s => s, fun _ _ => true, fun _ _ _ => false, fun _ _ => false⟩

/-- C76 fails: the check passes over blocks without a state number, meant to be those that are not reached, but sides of conditionals and nested
blocks do not have one either. The subroutine writes `a`, was not given `a`, and there is no warning. -/
theorem C76_counterexample_unchecked :
    (buildUnit exPerm).map (·.1) = some 9 ∧ IsFF exPermCfg exPermFF ∧
    (generateStates exPermCfg 0 (fun _ => exPermFF) 10 (List.finRange 10)).isSome = true ∧
    (∀ b, ((preventDup exPermCfg 0 exPermNum (List.finRange 10)).blk b).isState = (exPermCfg.blk b).isState) ∧
    exPermCode.length = 3 ∧
    ¬ OnlyPermitted exPermCfg exPermFF exPermNum exPermBlk exPermHost exPermSubs exPermAccess (List.finRange 10) exPermCode := by
  refine ⟨by decide +kernel, fun b => ⟨14, ?_⟩, by decide +kernel, by decide +kernel, by decide +kernel, fun h => ?_⟩
  · revert b; decide +kernel
  have hc : checkPermissions exPermHost exPermSubs exPermNum exPermBlk exPermAccess (List.finRange 10) = .ok [] := by
    have h1 : (match checkPermissions exPermHost exPermSubs exPermNum exPermBlk exPermAccess (List.finRange 10) with
      | .ok ws => some ws | .error _ => none) = some [] := by decide +kernel
    split at h1
    · rename_i e; rw [e]; simp at h1; rw [h1]
    · cases h1
  have h6 : (hwRun exPermCfg exPermNum exPermFF (callIdsFrom exPermCfg 0 (List.finRange 10)) exPermCode exPermSem (fun _ s => s)
      ⟨1, 0, fun _ => 0, ()⟩ 2).map (fun r => r.1) = some [[0, 7], [1, 2, 4, 5, 6]] := by decide +kernel
  rw [Option.map_eq_some_iff] at h6
  obtain ⟨⟨trs, hw⟩, h7, h8⟩ := h6
  simp only at h8
  subst h8
  have h9 := h hc Unit exPermSem (fun _ s => s) ⟨1, 0, fun _ => 0, ()⟩ 2 _ hw h7 [1, 2, 4, 5, 6] (by decide) 4 (by decide) 0 _
    (by decide +kernel) rfl
  have h10 := (h9.1 (.plain 7) (by decide +kernel)).2 "a" (by decide +kernel)
  cases h10 with
  | writes hp _ => simp at hp
  | readwrites hp _ => simp at hp
  | own hp => simp at hp
  | output hp _ => simp at hp
  | call hp _ _ => simp at hp

end Silice
