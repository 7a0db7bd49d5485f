import Verif.Lemmas.GatherDom
import Verif.Props.Access
import Verif.Props.Gather

/-!
# C32, C33 for programs

`determineAccess` and `determineUsage` on the graphs made from statements, whatever the names read and written by the instructions.
-/

set_option autoImplicit false

namespace Silice

section
variable (u : AlgUnit) (last : Nat) (st : PSt) (ff : Cfg (Fin (last + 1)) → Fin (last + 1) → Fin (last + 1)) (hff : Skips ff)
  (h : buildUnit u = some (last, st)) (hok : u.switchOk = true) (g : Cfg (Fin (last + 1))) (rs : RenSt (Fin (last + 1)))
  (hg : generateStates (st.cfg last) 0 ff (last + 1) (List.finRange (last + 1)) = some (g, rs))
  (acc : Fin (last + 1) → List (List String × List String))

include hff h hok hg in
/-- Each state that has a number starts a graph of the shape that the exploration relies on. -/
theorem numbered_dominated (b : Fin (last + 1)) (hb : rs.num.sid b ≠ none) : Dominated (accGraph acc g) b := by
  obtain ⟨n0, l, lo, g', rs', h1, U, M, _, _, P, _, _, _, _, _, _, m⟩ := unit_machine u last st ff hff h hok
  rw [h1] at hg
  cases hg
  obtain ⟨k, hk⟩ := Option.ne_none_iff_exists'.mp hb
  obtain ⟨hr, hs, _⟩ := (m.numbers.states b).mp ⟨k, hk⟩
  exact unit_dominated U M P hs hr

include hff h hok hg in
/-- C33: in every program, for each state of its machine, the names recorded as needing their value from before are exactly those
that some path of the cycle that starts in this state reads before writing. -/
theorem C33_programs (head : Fin (last + 1)) (hs : rs.num.sid head ≠ none) (fuel : Nat) (log : List (Fin (last + 1) × List String))
    (e : accHead (accGraph acc g) fuel head = some log) (x : String) :
    x ∈ inVarsRead (accGraph acc g) log ↔
      ∃ l c, Walk (accGraph acc g) head l c ∧ Enters (accGraph acc g) l c ∧ ReadsFirst (accGraph acc g) l c x :=
  C33_incoming_reads_partial _ _ (numbered_dominated u last st ff hff h hok g rs hg acc head hs) _ _ e _

include hff h hok hg in
/-- C32: in every program, a variable that some state writes, that is not a table and not tied to ports, is a temporary exactly when
no path of a cycle and nothing outside of the code needs its value from before, and a register otherwise. `ends` and `tables` are
the names read outside of the code and the tables. -/
theorem C32_programs (ends tables trickle : List String) (fuel : Nat) (log : List (Fin (last + 1) × List String)) (a : AccIn (Fin (last + 1)))
    (ha : a = { g := accGraph acc g, heads := (List.finRange (last + 1)).filter fun b => (rs.num.sid b).isSome, readEnd := ends,
                trickle, boundOut := [], boundInOut := [], internalFF := [], tables })
    (e : accAll a fuel = some log) (x : String) (hw : a.WriteSome x) :
    (usageOf a log x = .ok .temporary ↔ x ∉ tables ∧ ¬ a.NeedsOld x) ∧
    (usageOf a log x = .ok .flipflop ↔ x ∈ tables ∨ a.NeedsOld x) := by
  subst ha
  refine C32_register_when_needed_partial _ (fun b hb => ?_) fuel log e x ⟨by simp, by simp, by simp⟩ hw
  refine numbered_dominated u last st ff hff h hok g rs hg acc b fun hn => ?_
  have := (List.mem_filter.mp hb).2
  rw [hn] at this
  cases this

end

/-- `exStructured`, with `y = x + y;` in each block: the states are generated, the exploration ends, the first block has a number, `y` is
written and its value from before is needed. -/
example : ∃ last st ff, Skips ff ∧ buildUnit exStructured = some (last, st) ∧ ∃ g rs,
    generateStates (st.cfg last) 0 ff (last + 1) (List.finRange (last + 1)) = some (g, rs) ∧ rs.num.sid g.first ≠ none ∧
    ∃ (a : AccIn (Fin (last + 1))) (fuel : Nat) (log : List (Fin (last + 1) × List String)),
      a = { g := accGraph (fun _ => [(["x", "y"], ["y"])]) g, heads := (List.finRange (last + 1)).filter fun b => (rs.num.sid b).isSome,
            readEnd := [], trickle := [], boundOut := [], boundInOut := [], internalFF := [], tables := [] } ∧
      accAll a fuel = some log ∧ a.WriteSome "y" ∧ a.NeedsOld "y" := by
  classical
  have hb : (buildUnit exStructured).isSome = true := by decide +kernel
  obtain ⟨⟨last, st⟩, hb⟩ := Option.isSome_iff_exists.mp hb
  obtain ⟨ff, hff⟩ : ∃ ff : Cfg (Fin (last + 1)) → Fin (last + 1) → Fin (last + 1), Skips ff := by
    refine ⟨fun g b => if h : ∃ r f, fastForward g f b = some r then h.choose else b, fun g f b r h => ?_⟩
    have hx : ∃ r f, fastForward g f b = some r := ⟨r, f, h⟩
    simp only [dif_pos hx]
    obtain ⟨f', h'⟩ := hx.choose_spec
    exact C19_fuel_irrelevant g f' f b _ _ h' h
  obtain ⟨g, rs, h1, _, _, h2, _⟩ := C21_programs exStructured last st ff hff hb (by decide +kernel)
  refine ⟨last, st, ff, hff, hb, g, rs, h1, by rw [h2]; simp, ?_⟩
  obtain ⟨a, ha⟩ : ∃ a : AccIn (Fin (last + 1)), a =
      { g := accGraph (fun _ => [(["x", "y"], ["y"])]) g, heads := (List.finRange (last + 1)).filter fun b => (rs.num.sid b).isSome,
        readEnd := [], trickle := [], boundOut := [], boundInOut := [], internalFF := [], tables := [] } := ⟨_, rfl⟩
  obtain ⟨fuel, log, e, _⟩ := C33_all_terminates a (List.finRange (last + 1)) List.mem_finRange
  refine ⟨a, fuel, log, ha, e, ?_, .inr ?_⟩ <;> subst ha
  · exact ⟨g.first, List.mem_filter.mpr ⟨List.mem_finRange _, by rw [h2]; rfl⟩, [], g.first, .start, .inl rfl, _, List.mem_singleton.mpr rfl, by simp⟩
  · exact ⟨g.first, List.mem_filter.mpr ⟨List.mem_finRange _, by rw [h2]; rfl⟩, [], g.first, .start, .inl rfl, [], _, [], rfl, by simp, by simp, by simp⟩

end Silice
