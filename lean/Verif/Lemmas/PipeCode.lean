import Verif.Spec.PipeCode
import Verif.Lemmas.Usage
import Verif.Props.PipeOrder

/-!
Lemmas on pipelines without state machines.
-/

set_option autoImplicit false

namespace Silice

variable {V L : Type}

/-! ### Names -/

mutual
theorem Stm.keys_names (s : Stm V L) (K : Keys) (x : String) (h : s.keys K x = true) : K x = true ∨ x ∈ s.wrNames := by
  match s with
  | .skip => exact Or.inl h
  | .exit _ => exact Or.inl h
  | .ins i =>
    simp only [Stm.keys, insKeys, Bool.or_eq_true, decide_eq_true_eq] at h
    simp only [Stm.wrNames, List.mem_append]
    tauto
  | .seq a b =>
    rcases b.keys_names _ x h with h1 | h1
    · rcases a.keys_names _ x h1 with h2 | h2
      · exact Or.inl h2
      · exact Or.inr (List.mem_append_left _ h2)
    · exact Or.inr (List.mem_append_right _ h1)
  | .branch rs sel bs push other =>
    simp only [Stm.keys, Bool.or_eq_true] at h
    rcases h with h | h
    · exact Or.inl h
    · exact bs.keys_names K x h

theorem Brs.keys_names (bs : Brs V L) (K : Keys) (x : String) (h : bs.anyKey K x = true) : K x = true ∨ x ∈ bs.wrNames := by
  match bs with
  | .one s => exact s.keys_names K x h
  | .cons s bs =>
    simp only [Brs.anyKey, Bool.or_eq_true] at h
    rcases h with h | h
    · exact (s.keys_names K x h).imp id (List.mem_append_left _)
    · exact (bs.keys_names K x h).imp id (List.mem_append_right _)
end

theorem Ins.apply_other (i : Ins V) (vals : List V) (m : String → V) (x : String) (h : x ∉ i.writes ++ i.parts ++ i.fields) :
    i.apply vals m x = m x := by
  simp only [List.mem_append, not_or] at h
  simp [Ins.apply, h.1.1, h.1.2, h.2]

mutual
theorem Stm.run_other (s : Stm V L) (m : String → V) (x : String) (h : x ∉ s.wrNames) : (s.run m).env x = m x := by
  match s with
  | .skip => rfl
  | .exit _ => rfl
  | .ins i => exact i.apply_other _ _ x h
  | .seq a b =>
    simp only [Stm.wrNames, List.mem_append, not_or] at h
    simp only [Stm.run]
    split
    · exact a.run_other m x h.1
    · rw [b.run_other _ x h.2, a.run_other m x h.1]
  | .branch rs sel bs push other =>
    simp only [Stm.run]
    split
    · exact bs.run_other _ m x h
    · rfl

theorem Brs.run_other (bs : Brs V L) (k : Nat) (m : String → V) (x : String) (h : x ∉ bs.wrNames) : (bs.run k m).env x = m x := by
  match bs, k with
  | .one s, _ => exact s.run_other m x h
  | .cons s bs, 0 =>
    simp only [Brs.wrNames, List.mem_append, not_or] at h
    exact s.run_other m x h.1
  | .cons s bs, k + 1 =>
    simp only [Brs.wrNames, List.mem_append, not_or] at h
    exact bs.run_other k m x h.2
end

mutual
theorem Stm.emit_other (cls : String → Store) (s : Stm V L) (K : Keys) (h : HSt V L) (x : String) (hx : x ∉ s.wrNames) :
    ((s.emit cls K).run h).v x = h.v x ∧ ((s.emit cls K).run h).q = h.q := by
  match s with
  | .skip => exact ⟨rfl, rfl⟩
  | .exit _ => exact ⟨rfl, rfl⟩
  | .ins i => exact ⟨i.apply_other _ _ x hx, rfl⟩
  | .seq a b =>
    simp only [Stm.wrNames, List.mem_append, not_or] at hx
    have ha := a.emit_other cls K h x hx.1
    have hb := b.emit_other cls (a.keys K) ((a.emit cls K).run h) x hx.2
    simp only [Stm.emit, ECode.run]
    exact ⟨hb.1.trans ha.1, hb.2.trans ha.2⟩
  | .branch rs sel bs push other =>
    simp only [Stm.emit, ECode.run]
    split
    · exact bs.emit_other cls K _ x hx _
    · exact ⟨rfl, rfl⟩

theorem Brs.emit_other (cls : String → Store) (bs : Brs V L) (K : Keys) (h : HSt V L) (x : String) (hx : x ∉ bs.wrNames) (k : Nat) :
    ((bs.emits cls K).run k h).v x = h.v x ∧ ((bs.emits cls K).run k h).q = h.q := by
  match bs, k with
  | .one s, _ => exact s.emit_other cls K h x hx
  | .cons s bs, 0 =>
    simp only [Brs.wrNames, List.mem_append, not_or] at hx
    exact s.emit_other cls K h x hx.1
  | .cons s bs, k + 1 =>
    simp only [Brs.wrNames, List.mem_append, not_or] at hx
    exact bs.emit_other cls K h x hx.2 k
end

mutual
theorem Stm.emit_q (cls : String → Store) (s : Stm V L) (K : Keys) (h : HSt V L) : ((s.emit cls K).run h).q = h.q := by
  match s with
  | .skip => rfl
  | .exit _ => rfl
  | .ins i => rfl
  | .seq a b =>
    simp only [Stm.emit, ECode.run]
    exact (b.emit_q cls _ _).trans (a.emit_q cls K h)
  | .branch rs sel bs push other =>
    simp only [Stm.emit, ECode.run]
    split
    · exact bs.emit_q cls K _ _
    · rfl

theorem Brs.emit_q (cls : String → Store) (bs : Brs V L) (K : Keys) (h : HSt V L) (k : Nat) : ((bs.emits cls K).run k h).q = h.q := by
  match bs, k with
  | .one s, _ => exact s.emit_q cls K h
  | .cons s bs, 0 => exact s.emit_q cls K h
  | .cons s bs, k + 1 => exact bs.emit_q cls K h k
end

/-! ### What emitted code depends on -/

/-- Same on `R` for flip-flop outputs and on `A` for current values. -/
structure SameOn (R : String → Prop) (A : String → Prop) (h h2 : HSt V L) : Prop where
  q : ∀ x, R x → h.q x = h2.q x
  v : ∀ x, A x → h.v x = h2.v x
  next : h.next = h2.next
  evs : h.evs = h2.evs

theorem SameOn.reads {cls : String → Store} {K : Keys} {R A : String → Prop} {h h2 : HSt V L} (s : SameOn R A h h2) (rs : List String)
    (hr : ∀ x ∈ rs, R x ∧ (cls x = .temp ∨ K x = true → A x)) :
    ((rs.map (readSide cls K)).zip rs).map h.rd = ((rs.map (readSide cls K)).zip rs).map h2.rd := by
  induction rs with
  | nil => rfl
  | cons x rs ih =>
    simp only [List.map_cons, List.zip_cons_cons, ih fun y hy => hr y (by simp [hy])]
    congr 1
    obtain ⟨h1, h3⟩ := hr x (by simp)
    simp only [HSt.rd, readSide]
    cases hc : cls x with
    | temp => exact s.v x (h3 (Or.inl hc))
    | flipflop =>
      cases hk : K x with
      | true => exact s.v x (h3 (Or.inr hk))
      | false => exact s.q x h1

mutual
theorem Stm.frame {cls : String → Store} {R A : String → Prop} (s : Stm V L) (K : Keys) (hw : ∀ x ∈ s.wrNames, A x)
    (hr : ∀ x ∈ s.rdNames, R x ∧ (cls x = .temp ∨ K x = true → A x)) (h h2 : HSt V L) (hs : SameOn R A h h2) :
    SameOn R A ((s.emit cls K).run h) ((s.emit cls K).run h2) := by
  match s with
  | .skip => exact hs
  | .exit l => exact ⟨hs.q, hs.v, rfl, hs.evs⟩
  | .ins i =>
    have e := hs.reads i.reads hr
    simp only [Stm.emit, ECode.run, e]
    refine ⟨hs.q, ?_, hs.next, by simp only [hs.evs]⟩
    intro x hx
    simp only [Ins.apply, hs.v x hx]
  | .seq a b =>
    simp only [Stm.wrNames, Stm.rdNames, List.mem_append] at hw hr
    have ha := a.frame K (fun x hx => hw x (Or.inl hx)) (fun x hx => hr x (Or.inl hx)) h h2 hs
    simp only [Stm.emit, ECode.run]
    refine b.frame _ (fun x hx => hw x (Or.inr hx)) (fun x hx => ⟨(hr x (Or.inr hx)).1, ?_⟩) _ _ ha
    rintro (hc | hk)
    · exact (hr x (Or.inr hx)).2 (Or.inl hc)
    · rcases a.keys_names K x hk with h1 | h1
      · exact (hr x (Or.inr hx)).2 (Or.inr h1)
      · exact hw x (Or.inl h1)
  | .branch rs sel bs push other =>
    simp only [Stm.rdNames, List.mem_append] at hr
    have e := hs.reads rs fun x hx => hr x (Or.inl hx)
    simp only [Stm.emit, ECode.run, e]
    split
    · apply bs.frame K hw (fun x hx => hr x (Or.inr hx))
      exact ⟨hs.q, hs.v, hs.next, by simp only [hs.evs]⟩
    · exact ⟨hs.q, hs.v, by simp only [hs.next], by simp only [hs.evs]⟩

theorem Brs.frame {cls : String → Store} {R A : String → Prop} (bs : Brs V L) (K : Keys) (hw : ∀ x ∈ bs.wrNames, A x)
    (hr : ∀ x ∈ bs.rdNames, R x ∧ (cls x = .temp ∨ K x = true → A x)) (h h2 : HSt V L) (hs : SameOn R A h h2) (k : Nat) :
    SameOn R A ((bs.emits cls K).run k h) ((bs.emits cls K).run k h2) := by
  match bs, k with
  | .one s, _ => exact s.frame K hw hr h h2 hs
  | .cons s bs, 0 =>
    simp only [Brs.wrNames, Brs.rdNames, List.mem_append] at hw hr
    exact s.frame K (fun x hx => hw x (Or.inl hx)) (fun x hx => hr x (Or.inl hx)) h h2 hs
  | .cons s bs, k + 1 =>
    simp only [Brs.wrNames, Brs.rdNames, List.mem_append] at hw hr
    exact bs.frame K (fun x hx => hw x (Or.inr hx)) (fun x hx => hr x (Or.inr hx)) h h2 hs k
end

theorem covered_true (x : String) (evs : List (Ev V)) : Covered x true evs := by
  induction evs with
  | nil => trivial
  | cons e es ih => exact ⟨fun _ => rfl, by simpa using ih⟩

theorem wrote_true (x : String) (evs : List (Ev V)) : wrote x true evs = true := by
  simp [wrote]

mutual
theorem Stm.reads_names (s : Stm V L) (m : String → V) : ∀ e ∈ (s.run m).evs, ∀ x ∈ e.reads, x ∈ s.rdNames := by
  match s with
  | .skip => intro e he; simp [Stm.run] at he
  | .exit _ => intro e he; simp [Stm.run] at he
  | .ins i => intro e he; simp only [Stm.run, List.mem_singleton] at he; subst he; exact fun x hx => hx
  | .seq a b =>
    intro e he x hx
    simp only [Stm.rdNames, List.mem_append]
    simp only [Stm.run] at he
    split at he
    · exact Or.inl (a.reads_names m e he x hx)
    · rcases List.mem_append.mp he with he | he
      · exact Or.inl (a.reads_names m e he x hx)
      · exact Or.inr (b.reads_names _ e he x hx)
  | .branch rs sel bs push other =>
    intro e he x hx
    simp only [Stm.rdNames, List.mem_append]
    simp only [Stm.run] at he
    split at he
    · rcases List.mem_cons.mp he with he | he
      · subst he; exact Or.inl hx
      · exact Or.inr (bs.reads_names _ m e he x hx)
    · simp only [List.mem_singleton] at he
      subst he; exact Or.inl hx

theorem Brs.reads_names (bs : Brs V L) (k : Nat) (m : String → V) : ∀ e ∈ (bs.run k m).evs, ∀ x ∈ e.reads, x ∈ bs.rdNames := by
  match bs, k with
  | .one s, _ => exact s.reads_names m
  | .cons s bs, 0 =>
    intro e he x hx
    exact List.mem_append_left _ (s.reads_names m e he x hx)
  | .cons s bs, k + 1 =>
    intro e he x hx
    exact List.mem_append_right _ (bs.reads_names k m e he x hx)
end

/-- Emitted code follows the source from `m`, as long as what it may use agrees with `m`. -/
theorem Stm.refineOn {cls : String → Store} (s : Stm V L) (K : Keys) (hs : s.Shape) (m : String → V) (h : HSt V L) (w : String → Bool)
    (hv : ∀ x, x ∈ s.wrNames ∨ (x ∈ s.rdNames ∧ (cls x = .temp ∨ K x = true)) → (cls x = .temp → w x = true) → h.v x = m x)
    (hq : ∀ x ∈ s.rdNames, cls x = .flipflop → K x = false → h.q x = m x)
    (hcov : ∀ x, cls x = .temp → Covered x (w x) (s.run m).evs) :
    ((s.emit cls K).run h).evs = h.evs ++ (s.run m).evs ∧
    (∀ x ∈ s.wrNames, (cls x = .temp → wrote x (w x) (s.run m).evs = true) → ((s.emit cls K).run h).v x = (s.run m).env x) ∧
    ∀ x, x ∉ s.wrNames → ((s.emit cls K).run h).v x = h.v x := by
  classical
  let A : String → Prop := fun x => x ∈ s.wrNames ∨ (x ∈ s.rdNames ∧ (cls x = .temp ∨ K x = true))
  let h2 : HSt V L := { h with q := fun x => if x ∈ s.rdNames then h.q x else m x, v := fun x => if A x then h.v x else m x }
  have hsame : SameOn (fun x => x ∈ s.rdNames) A h h2 :=
    ⟨fun x hx => by simp only [h2, if_pos hx], fun x hx => by simp only [h2, if_pos hx], rfl, rfl⟩
  have hfr := s.frame (cls := cls) K (fun x hx => Or.inl hx) (fun x hx => ⟨hx, fun hc => Or.inr ⟨hx, hc⟩⟩) h h2 hsame
  have href := s.refine (cls := cls) K hs m h2 w (fun x hx => by
      by_cases hA : A x
      · simp only [h2, if_pos hA]
        exact hv x hA (by simp [hx])
      · simp only [h2, if_neg hA]) (fun x hx hk => by
      by_cases hA : x ∈ s.rdNames
      · simp only [h2, if_pos hA]
        exact hq x hA hx hk
      · simp only [h2, if_neg hA]) (fun x hx hw => by
      by_cases hA : A x
      · simp only [h2, if_pos hA]
        exact hv x hA fun _ => hw
      · simp only [h2, if_neg hA]) hcov
  refine ⟨hfr.evs.trans href.evs, fun x hx hc => (hfr.v x (Or.inl hx)).trans ?_, fun x hx => (s.emit_other cls K h x hx).1⟩
  cases hcl : cls x with
  | flipflop => exact href.ff x hcl
  | temp => exact href.tmp x hcl (hc hcl)

/-! ### Stages and variables -/

section
variable {p : PipeCode V} {nfo : PipeNfo}

theorem ios_get (p : PipeCode V) (s : Nat) (io : StageIO) : p.ios[s]? = some io ↔ s < p.n ∧ io = (p.stage s).io p.outs := by
  simp only [PipeCode.ios, List.getElem?_map]
  by_cases h : s < p.n
  · simp [h, eq_comm]
  · simp [h]

theorem mem_varsOf {outs l : List String} {x : String} : x ∈ varsOf outs l ↔ x ∈ l ∧ x ∉ outs := by
  simp [varsOf]

theorem exists_greatest {P : Nat → Prop} {n : Nat} (h : ∀ k, P k → k < n) {b : Nat} (hb : P b) : ∃ m, P m ∧ ∀ k, P k → k ≤ m := by
  by_contra hno
  push Not at hno
  have : ∀ d, ∃ m, P m ∧ d ≤ m := by
    intro d
    induction d with
    | zero => exact ⟨b, hb, Nat.zero_le _⟩
    | succ d ih =>
      obtain ⟨m, hm, hd⟩ := ih
      obtain ⟨k, hk, hlt⟩ := hno m hm
      exact ⟨k, hk, by omega⟩
  obtain ⟨m, hm, hd⟩ := this n
  have := h m hm
  omega

theorem exists_least {P : Nat → Prop} : ∀ b, P b → ∃ m, P m ∧ ∀ k, P k → m ≤ k := by
  intro b
  induction b using Nat.strongRecOn with
  | _ b ih =>
    intro hb
    by_cases h : ∃ k, k < b ∧ P k
    · obtain ⟨k, hk, hp⟩ := h
      exact ih k hk hp
    · exact ⟨b, hb, fun k hk => by by_contra hlt; exact h ⟨k, by omega, hk⟩⟩

theorem io_special {outs : List String} {s : PStage V} {x : String} (hx : x ∉ outs) : (s.io outs).Special x ↔ s.Special x := by
  simp only [StageIO.Special, PStage.Special, PStage.io, mem_varsOf, hx, not_false_iff, and_true]

/-- A variable works on the item's copy exactly between its first plain assignment and its last read. -/
theorem carried_iff (hck : checkPipeline p.ios = .ok nfo) (x : String) (s : Nat) :
    p.Carried x s ↔ ∃ a b, trickleRange nfo x = some (a, b) ∧ a < s ∧ s ≤ b := by
  constructor
  · rintro ⟨ho, ⟨a0, ha0, han, haw, has⟩, b0, hb0, hbn, hbr⟩
    obtain ⟨a, ⟨ha1, ha2, ha3⟩, hmin⟩ := exists_least (P := fun a => a < p.n ∧ x ∈ (p.stage a).code.wrNames ∧ ¬ (p.stage a).Special x) a0 ⟨han, haw, has⟩
    obtain ⟨b, ⟨hb1, hb2⟩, hmax⟩ := exists_greatest (P := fun b => b < p.n ∧ x ∈ (p.stage b).code.rdNames) (fun k hk => hk.1) ⟨hbn, hbr⟩
    have h1 := hmin a0 ⟨han, haw, has⟩
    have h2 := hmax b0 ⟨hbn, hbr⟩
    refine ⟨a, b, (C23_carried_iff p.ios nfo x a b hck).mpr ⟨by omega, ⟨_, (ios_get ..).mpr ⟨ha1, rfl⟩, mem_varsOf.mpr ⟨ha2, ho⟩, ?_⟩, ?_, ⟨_, (ios_get ..).mpr ⟨hb1, rfl⟩, mem_varsOf.mpr ⟨hb2, ho⟩⟩, ?_⟩,
      by omega, by omega⟩
    · rw [io_special ho]; exact ha3
    · intro k io hk hw hsp
      obtain ⟨hk1, rfl⟩ := (ios_get ..).mp hk
      exact hmin k ⟨hk1, (mem_varsOf.mp hw).1, by rwa [io_special ho] at hsp⟩
    · intro k io hk hr
      obtain ⟨hk1, rfl⟩ := (ios_get ..).mp hk
      exact hmax k ⟨hk1, (mem_varsOf.mp hr).1⟩
  · rintro ⟨a, b, h, has, hsb⟩
    obtain ⟨-, ⟨ioa, hioa, haw, hasp⟩, -, ⟨iob, hiob, hbr⟩, -⟩ := (C23_carried_iff p.ios nfo x a b hck).mp h
    obtain ⟨ha1, rfl⟩ := (ios_get ..).mp hioa
    obtain ⟨hb1, rfl⟩ := (ios_get ..).mp hiob
    obtain ⟨haw1, ho⟩ := mem_varsOf.mp haw
    exact ⟨ho, ⟨a, has, ha1, haw1, by rwa [io_special ho] at hasp⟩, b, hsb, hb1, (mem_varsOf.mp hbr).1⟩

theorem special_wr (hl : p.Listed) {s : Nat} {x : String} (hs : s < p.n) (h : (p.stage s).Special x) :
    x ∈ (p.stage s).code.wrNames ∧ x ∉ p.outs := ⟨((hl s hs).1 x).mpr (Or.inl h), (hl s hs).2 x h⟩

/-- A variable assigned with a pipeline operator is assigned by no other stage. -/
theorem special_alone (hck : checkPipeline p.ios = .ok nfo) (hl : p.Listed) {i j : Nat} {x : String} (hi : i < p.n) (hj : j < p.n)
    (hij : i ≠ j) (hs : (p.stage i).Special x) : x ∉ (p.stage j).code.wrNames := by
  intro hw
  obtain ⟨-, h⟩ := (C27_accepted_iff p.ios).mp ⟨nfo, hck⟩
  obtain ⟨-, ho⟩ := special_wr hl hi hs
  have hgi := (ios_get p i _).mpr ⟨hi, rfl⟩
  have hgj := (ios_get p j _).mpr ⟨hj, rfl⟩
  have hwj : x ∈ ((p.stage j).io p.outs).written := mem_varsOf.mpr ⟨hw, ho⟩
  rcases Nat.lt_or_gt_of_ne hij with hlt | hgt
  · exact (h i j _ _ hlt hgi hgj).2.2.1 x ⟨(io_special ho).mpr hs, hwj⟩
  · by_cases hsj : (p.stage j).Special x
    · exact (h j i _ _ hgt hgj hgi).2.1 x ⟨(io_special ho).mpr hsj, (io_special ho).mpr hs⟩
    · exact (h j i _ _ hgt hgj hgi).2.2.2 x ⟨hwj, by rwa [io_special ho], (io_special ho).mpr hs⟩

theorem special_notCarried (hck : checkPipeline p.ios = .ok nfo) (hl : p.Listed) {i s : Nat} {x : String} (hi : i < p.n)
    (hs : (p.stage i).Special x) : ¬ p.Carried x s := by
  rintro ⟨-, ⟨a, -, han, haw, hasp⟩, -⟩
  by_cases h : i = a
  · subst h; exact hasp hs
  · exact special_alone hck hl hi han h hs haw

/-- A variable is assigned by one stage, if not as a copy. -/
theorem one_writer (hck : checkPipeline p.ios = .ok nfo) {cls : PCell → Store} {K0 : Keys} {l : List Nat} (hu : p.Usual cls K0 l) {i j : Nat}
    {x : String} (hi : i < p.n) (hj : j < p.n) (hwi : x ∈ (p.stage i).code.wrNames) (hwj : x ∈ (p.stage j).code.wrNames)
    (hci : ¬ p.Carried x i) (hcj : ¬ p.Carried x j) : i = j := by
  by_contra hij
  by_cases ho : x ∈ p.outs
  · obtain ⟨-, h⟩ := (C27_accepted_iff p.ios).mp ⟨nfo, hck⟩
    have hgi := (ios_get p i _).mpr ⟨hi, rfl⟩
    have hgj := (ios_get p j _).mpr ⟨hj, rfl⟩
    have hwi' : x ∈ ((p.stage i).io p.outs).outputs := by simpa [PStage.io] using ⟨hwi, ho⟩
    have hwj' : x ∈ ((p.stage j).io p.outs).outputs := by simpa [PStage.io] using ⟨hwj, ho⟩
    rcases Nat.lt_or_gt_of_ne hij with hlt | hgt
    · exact (h i j _ _ hlt hgi hgj).1 x ⟨hwi', hwj'⟩
    · exact (h j i _ _ hgt hgj hgi).1 x ⟨hwj', hwi'⟩
  · rcases Nat.lt_or_gt_of_ne hij with hlt | hgt
    · exact hcj (hu.again x i j hlt hj ho hwi hwj)
    · exact hci (hu.again x j i hgt hi ho hwj hwi)

theorem loc_carried (hck : checkPipeline p.ios = .ok nfo) {x : String} {s : Nat} (h : p.Carried x s) :
    pipeLoc (trickleRange nfo) s x = .copy s x := by
  obtain ⟨a, b, h1, h2, -⟩ := (carried_iff hck x s).mp h
  simp only [pipeLoc, h1, if_pos h2]

theorem loc_copy {tr : String → Option (Nat × Nat)} {s k : Nat} {x y : String} (h : pipeLoc tr s x = .copy k y) : k = s ∧ y = x := by
  unfold pipeLoc at h
  split at h
  · split at h <;> simp_all
  · cases h

theorem loc_var_name {tr : String → Option (Nat × Nat)} {s : Nat} {x y : String} (h : pipeLoc tr s x = .var y) : y = x := by
  unfold pipeLoc at h
  split at h
  · split at h <;> simp_all
  · simp_all

theorem loc_var (hck : checkPipeline p.ios = .ok nfo) {cls : PCell → Store} {K0 : Keys} {l : List Nat} (hu : p.Usual cls K0 l) {x : String} {s : Nat}
    (hs : s < p.n) (h : ¬ p.Carried x s) (hx : x ∈ (p.stage s).code.wrNames ∨ x ∈ (p.stage s).code.rdNames) :
    pipeLoc (trickleRange nfo) s x = .var x := by
  unfold pipeLoc
  split
  · rename_i a b hab
    split
    · rename_i has
      exfalso
      obtain ⟨-, ⟨ioa, hioa, haw, hasp⟩, -, -, hmax⟩ := (C23_carried_iff p.ios nfo x a b hck).mp hab
      obtain ⟨ha1, rfl⟩ := (ios_get ..).mp hioa
      obtain ⟨haw1, ho⟩ := mem_varsOf.mp haw
      rcases hx with hw | hr
      · exact h (hu.again x a s has hs ho haw1 hw)
      · exact h ((carried_iff hck x s).mpr ⟨a, b, hab, has, hmax s _ ((ios_get ..).mpr ⟨hs, rfl⟩) (mem_varsOf.mpr ⟨hr, ho⟩)⟩)
    · rfl
  · rfl

/-! ### A cycle -/

theorem runStages_append (tr : String → Option (Nat × Nat)) (cls : PCell → Store) (K0 : Keys) (q : PCell → V) (a : List Nat) : ∀ (E b : List Nat)
    (v : PCell → V) (evs : Nat → List (Ev V)),
    p.runStages tr cls K0 q E (a ++ b) v evs =
      p.runStages tr cls K0 q (E ++ a) b (p.runStages tr cls K0 q E a v evs).1 (p.runStages tr cls K0 q E a v evs).2 := by
  induction a with
  | nil => intro E b v evs; simp [PipeCode.runStages]
  | cons s a ih => intro E b v evs; simp [PipeCode.runStages, ih]

theorem runStage_var (tr : String → Option (Nat × Nat)) (cls : PCell → Store) (K0 : Keys) (q : PCell → V) (E : List Nat) (v : PCell → V) (s : Nat)
    (x : String) (h : x ∈ (p.stage s).code.wrNames → pipeLoc tr s x ≠ .var x) : (p.runStage tr cls K0 E q v s).1 (.var x) = v (.var x) := by
  simp only [PipeCode.runStage, pipeCapture, pipeBack]
  split
  · rename_i hl
    rw [((p.stage s).code.emit_other _ _ _ x fun hw => h hw hl).1]
    simp only [pipeView, hl]
  · rfl

theorem runStages_var (tr : String → Option (Nat × Nat)) (cls : PCell → Store) (K0 : Keys) (q : PCell → V) (x : String) (rest : List Nat) :
    ∀ (E : List Nat) (v : PCell → V) (evs : Nat → List (Ev V)),
    (∀ s ∈ rest, x ∈ (p.stage s).code.wrNames → pipeLoc tr s x ≠ .var x) →
    (p.runStages tr cls K0 q E rest v evs).1 (.var x) = v (.var x) := by
  induction rest with
  | nil => intros; rfl
  | cons s rest ih =>
    intro E v evs h
    simp only [PipeCode.runStages]
    rw [ih _ _ _ fun k hk => h k (by simp [hk])]
    exact runStage_var tr cls K0 q E v s x (h s (by simp))

theorem ahead_mem {l E rest : List Nat} {k s : Nat} (hn : l.Nodup) (he : l = E ++ s :: rest) (h : Ahead l k s) : k ∈ E := by
  obtain ⟨l1, l2, h1, h2⟩ := h
  have hn1 : s ∉ E := fun hs => by
    rw [he, List.nodup_append] at hn
    exact hn.2.2 s hs s (by simp) rfl
  have hn2 : s ∉ l1 := fun hs => by
    rw [h1, List.nodup_append] at hn
    exact hn.2.2 s hs s (by simp) rfl
  have h3 : l.takeWhile (· ≠ s) = E := by
    rw [he, List.takeWhile_append_of_pos (fun a ha => by simpa using fun (h : a = s) => hn1 (h ▸ ha))]
    simp
  have h4 : l.takeWhile (· ≠ s) = l1 := by
    rw [h1, List.takeWhile_append_of_pos (fun a ha => by simpa using fun (h : a = s) => hn2 (h ▸ ha))]
    simp
  rw [← h3, h4]
  exact h2

/-- What holds when the stages `E` are done. -/
structure StagesInv (p : PipeCode V) (start : Nat → String → V) (v0 : PCell → V) (E : List Nat) (v : PCell → V) (evs : Nat → List (Ev V)) : Prop where
  evs : ∀ s ∈ E, evs s = ((p.stage s).code.run (start s)).evs
  wrote : ∀ x, ∀ k ∈ E, x ∈ (p.stage k).code.wrNames → ¬ p.Carried x k → v (.var x) = ((p.stage k).code.run (start k)).env x
  kept : ∀ x, (∀ k ∈ E, x ∈ (p.stage k).code.wrNames → p.Carried x k) → v (.var x) = v0 (.var x)
  copy : ∀ s x, s ∉ E → v (.copy s x) = v0 (.copy s x)
  cap : ∀ s x, s ∈ E → p.Carried x (s + 1) → v (.copy s x) = ((p.stage s).code.run (start s)).env x

/-- Values of variables at the start of a stage; `fin`: at the end of the cycle. -/
noncomputable def PipeCode.startOf (p : PipeCode V) (r : Nat → String → V) (before fin : String → V) (s : Nat) (x : String) : V :=
  open Classical in
  if p.Carried x s then r s x
  else if (∃ k, k < p.n ∧ k ≠ s ∧ x ∈ (p.stage k).back) ∨ (∃ k, k < s ∧ x ∈ (p.stage k).fwd) then fin x
  else before x

section
variable {cls : PCell → Store} {K0 : Keys} {l : List Nat} {c : PipeCyc V} {r : Nat → String → V} {fin : String → V}

/-- What a stage gets. -/
theorem stage_gets (hck : checkPipeline p.ios = .ok nfo) (hl : p.Listed) (hord : orderPipelineStages p.accs = some l) (hu : p.Usual cls K0 l)
    (hb : ∀ x, cls (.var x) = .flipflop → K0 x = false → c.before x = c.held x)
    {E rest : List Nat} {s : Nat} (he : l = E ++ s :: rest) (hn : l.Nodup) (hlt : ∀ k ∈ l, k < p.n)
    {v : PCell → V} {evs : Nat → List (Ev V)} (hi : StagesInv p (p.startOf r c.before fin) (c.v cls r) E v evs)
    (hfin : ∀ x, fin x = (p.runStages (trickleRange nfo) cls K0 (c.q r) E (s :: rest) v evs).1 (.var x)) (x : String) :
    (x ∈ (p.stage s).code.wrNames ∨ (x ∈ (p.stage s).code.rdNames ∧ (cls (pipeLoc (trickleRange nfo) s x) = .temp ∨ p.keysAt (trickleRange nfo) K0 E s x = true)) →
      (cls (pipeLoc (trickleRange nfo) s x) = .temp → pipeLoc (trickleRange nfo) s x = .var x) →
      v (pipeLoc (trickleRange nfo) s x) = p.startOf r c.before fin s x) ∧
    (x ∈ (p.stage s).code.rdNames → cls (pipeLoc (trickleRange nfo) s x) = .flipflop → p.keysAt (trickleRange nfo) K0 E s x = false →
      c.q r (pipeLoc (trickleRange nfo) s x) = p.startOf r c.before fin s x) := by
  have hsl : s ∈ l := by rw [he]; simp
  have hsn := hlt s hsl
  have hsE : s ∉ E := fun h => by
    rw [he, List.nodup_append] at hn
    exact hn.2.2 s h s (by simp) rfl
  have hEl : ∀ k ∈ E, k < p.n := fun k hk => hlt k (by rw [he]; simp [hk])
  by_cases hc : p.Carried x s
  · have hloc := loc_carried hck hc
    have hst : p.startOf r c.before fin s x = r s x := by simp only [PipeCode.startOf, if_pos hc]
    rw [hloc, hst]
    refine ⟨fun _ ht => ?_, fun _ _ _ => rfl⟩
    rw [hi.copy s x hsE]
    simp only [PipeCyc.v]
    cases hcl : cls (.copy s x) with
    | temp => exact absurd (ht hcl) (by simp)
    | flipflop => rfl
  · by_cases hacc : x ∈ (p.stage s).code.wrNames ∨ x ∈ (p.stage s).code.rdNames
    swap
    · exact ⟨fun h => absurd (h.imp id And.left) hacc, fun h => absurd (Or.inr h) hacc⟩
    have hloc := loc_var hck hu hsn hc hacc
    have hK : p.keysAt (trickleRange nfo) K0 E s x = false → K0 x = false := by
      intro h
      simp only [PipeCode.keysAt, hloc, Bool.or_eq_false_iff] at h
      exact h.1.1
    -- a register not assigned before the pipeline
    have hq : cls (pipeLoc (trickleRange nfo) s x) = .flipflop → p.keysAt (trickleRange nfo) K0 E s x = false → c.q r (pipeLoc (trickleRange nfo) s x) = c.before x := by
      intro h1 h2
      rw [hloc] at h1 ⊢
      exact (hb x h1 (hK h2)).symm
    by_cases hw : ∃ k, k < p.n ∧ k ≠ s ∧ x ∈ (p.stage k).code.wrNames ∧ ¬ p.Carried x k
    · obtain ⟨k, hkn, hks, hkw, hkc⟩ := hw
      have hsw : x ∉ (p.stage s).code.wrNames := fun h => hks (one_writer hck hu hkn hsn hkw h hkc hc)
      have hr : x ∈ (p.stage s).code.rdNames := hacc.resolve_left hsw
      have hkeys : ∀ e, e < p.n → (p.stage e).Special x → e = k := by
        intro e hen hesp
        exact one_writer hck hu hen hkn (special_wr hl hen hesp).1 hkw (special_notCarried hck hl hen hesp) hkc
      by_cases hsee : x ∈ (p.stage k).back ∨ (k < s ∧ x ∈ (p.stage k).fwd)
      · -- assigned with an operator such that the stage sees it
        have hkE : k ∈ E := by
          apply ahead_mem hn he
          have hr' : x ∈ ((p.stage s).io p.outs).read := mem_varsOf.mpr ⟨hr, by
            rcases hsee with h | h
            · exact (hl k hkn).2 x (Or.inl h)
            · exact (hl k hkn).2 x (Or.inr (Or.inl h.2))⟩
          have hfeeds : Feeds p.accs k s → Ahead l k s := by
            intro hf
            have hkl : k ∈ l := by
              have := C24_each_stage_once _ l hord
              rw [this.mem_iff]
              simpa [PipeCode.accs, PipeCode.ios] using hkn
            obtain ⟨i, hi'⟩ := List.mem_iff_getElem?.mp hkl
            have hj : l[E.length]? = some s := by rw [he]; simp
            have hij := C24_writer_first _ l k s i E.length hord hf hi' hj
            refine ⟨E, rest, he, ?_⟩
            rw [he, List.getElem?_append_left hij] at hi'
            exact List.mem_of_getElem? hi'
          have hg : ∀ j, j < p.n → p.accs[j]? = some ⟨((p.stage j).io p.outs).read, ((p.stage j).io p.outs).backward, ((p.stage j).io p.outs).forward⟩ := by
            intro j hj
            simp [PipeCode.accs, (ios_get p j _).mpr ⟨hj, rfl⟩]
          rcases hsee with h | h
          · rcases Nat.lt_or_gt_of_ne hks with hlt' | hgt'
            · exact hu.seen k s x hlt' hsn h hr
            · exact hfeeds ⟨_, _, x, hg k hkn, hg s hsn, hr', Or.inl ⟨hgt', mem_varsOf.mpr ⟨h, (hl k hkn).2 x (Or.inl h)⟩⟩⟩
          · exact hfeeds ⟨_, _, x, hg k hkn, hg s hsn, hr', Or.inr ⟨h.1, mem_varsOf.mpr ⟨h.2, (hl k hkn).2 x (Or.inr (Or.inl h.2))⟩⟩⟩
        have hst : p.startOf r c.before fin s x = v (.var x) := by
          have : (∃ k, k < p.n ∧ k ≠ s ∧ x ∈ (p.stage k).back) ∨ (∃ k, k < s ∧ x ∈ (p.stage k).fwd) := by
            rcases hsee with h | h
            · exact Or.inl ⟨k, hkn, hks, h⟩
            · exact Or.inr ⟨k, h⟩
          simp only [PipeCode.startOf, if_neg hc, if_pos this]
          rw [hfin x]
          apply runStages_var
          intro j hj hjw hjl
          have hjn : j < p.n := hlt j (by rw [he]; simp only [List.mem_append]; exact Or.inr hj)
          have hjc : ¬ p.Carried x j := fun h => by rw [loc_carried hck h] at hjl; cases hjl
          have := one_writer hck hu hkn hjn hkw hjw hkc hjc
          subst this
          rw [he, List.nodup_append] at hn
          exact hn.2.2 k hkE k hj rfl
        rw [hst, hloc]
        refine ⟨fun _ _ => rfl, fun _ _ hkf => ?_⟩
        exfalso
        simp only [PipeCode.keysAt, hloc, Bool.or_eq_false_iff, List.any_eq_false, Bool.and_eq_true, decide_eq_true_eq, Bool.not_eq_true',
          decide_eq_false_iff_not, not_and, not_not] at hkf
        rcases hsee with h | h
        · exact hkf.1.2 k hkE (mem_varsOf.mpr ⟨h, (hl k hkn).2 x (Or.inl h)⟩)
        · have := hkf.2 k hkE (mem_varsOf.mpr ⟨h.2, (hl k hkn).2 x (Or.inr (Or.inl h.2))⟩)
          omega
      · push Not at hsee
        have hst : p.startOf r c.before fin s x = c.before x := by
          have : ¬ ((∃ k, k < p.n ∧ k ≠ s ∧ x ∈ (p.stage k).back) ∨ (∃ k, k < s ∧ x ∈ (p.stage k).fwd)) := by
            rintro (⟨e, hen, -, he'⟩ | ⟨e, hes, he'⟩)
            · rw [hkeys e hen (Or.inl he')] at he'
              exact hsee.1 he'
            · have hen : e < p.n := by omega
              have := hkeys e hen (Or.inr (Or.inl he'))
              subst this
              exact hsee.2 hes he'
          simp only [PipeCode.startOf, if_neg hc, if_neg this]
        rw [hst]
        refine ⟨fun h1 h2 => ?_, fun _ => hq⟩
        rcases hu.calm k s x hkn hsn hks hkw hkc hr hc hsee.1 (fun h => hsee.2 h.1 h.2) with ⟨h3, h4⟩ | h3
        · exfalso
          rcases h1 with h1 | ⟨-, h1 | h1⟩
          · exact hsw h1
          · rw [hloc, h4] at h1; cases h1
          · simp only [PipeCode.keysAt, hloc, h3, Bool.false_or, Bool.or_eq_true, List.any_eq_true, Bool.and_eq_true, decide_eq_true_eq,
              Bool.not_eq_true', decide_eq_false_iff_not] at h1
            rcases h1 with ⟨e, heE, he'⟩ | ⟨e, heE, he', hes⟩
            · have := hkeys e (hEl e heE) (Or.inl (mem_varsOf.mp he').1)
              subst this
              exact hsee.1 (mem_varsOf.mp he').1
            · have := hkeys e (hEl e heE) (Or.inr (Or.inl (mem_varsOf.mp he').1))
              subst this
              exact hsee.2 (by omega) (mem_varsOf.mp he').1
        · rw [hloc, hi.kept x]
          · rfl
          · intro e heE hew
            by_contra hec
            have := one_writer hck hu (hEl e heE) hkn hew hkw hec hkc
            subst this
            obtain ⟨l1, l2, h5, h6⟩ := h3
            obtain ⟨E1, E2, rfl⟩ := List.append_of_mem heE
            have he3 : l = E1 ++ e :: (E2 ++ s :: rest) := by rw [he]; simp
            have := ahead_mem hn he3 ⟨l1, l2, h5, h6⟩
            exact hsE (by simp [this])
    · push Not at hw
      have hst : p.startOf r c.before fin s x = c.before x := by
        have : ¬ ((∃ k, k < p.n ∧ k ≠ s ∧ x ∈ (p.stage k).back) ∨ (∃ k, k < s ∧ x ∈ (p.stage k).fwd)) := by
          rintro (⟨e, hen, hes, he'⟩ | ⟨e, hes, he'⟩)
          · exact special_notCarried hck hl hen (Or.inl he') (hw e hen hes (special_wr hl hen (Or.inl he')).1)
          · have hen : e < p.n := by omega
            exact special_notCarried hck hl hen (Or.inr (Or.inl he')) (hw e hen (by omega) (special_wr hl hen (Or.inr (Or.inl he'))).1)
        simp only [PipeCode.startOf, if_neg hc, if_neg this]
      rw [hst]
      refine ⟨fun _ _ => ?_, fun _ => hq⟩
      rw [hloc, hi.kept x]
      · rfl
      · intro e heE hew
        exact hw e (hEl e heE) (fun h => hsE (h ▸ heE)) hew

theorem stages_inv (hck : checkPipeline p.ios = .ok nfo) (hl : p.Listed) (hord : orderPipelineStages p.accs = some l) (hu : p.Usual cls K0 l)
    (hb : ∀ x, cls (.var x) = .flipflop → K0 x = false → c.before x = c.held x) (hn : l.Nodup) (hlt : ∀ k ∈ l, k < p.n) :
    ∀ (rest E : List Nat) (v : PCell → V) (evs : Nat → List (Ev V)), l = E ++ rest →
    StagesInv p (p.startOf r c.before fin) (c.v cls r) E v evs →
    (∀ x, fin x = (p.runStages (trickleRange nfo) cls K0 (c.q r) E rest v evs).1 (.var x)) →
    StagesInv p (p.startOf r c.before fin) (c.v cls r) l (p.runStages (trickleRange nfo) cls K0 (c.q r) E rest v evs).1
      (p.runStages (trickleRange nfo) cls K0 (c.q r) E rest v evs).2 := by
  intro rest
  induction rest with
  | nil =>
    intro E v evs he hi _
    rw [List.append_nil] at he
    subst he
    exact hi
  | cons s rest ih =>
    intro E v evs he hi hfin
    have hg := stage_gets hck hl hord hu hb he hn hlt hi hfin
    simp only [PipeCode.runStages] at hfin ⊢
    refine ih (E ++ [s]) _ _ (by simp [he]) ?_ hfin
    have hsn := hlt s (by rw [he]; simp)
    have hsE : s ∉ E := fun h => by
      rw [he, List.nodup_append] at hn
      exact hn.2.2 s h s (by simp) rfl
    have hEl : ∀ k ∈ E, k < p.n := fun k hk => hlt k (by rw [he]; simp [hk])
    obtain ⟨h1, h2, h3⟩ := (p.stage s).code.refineOn (cls := fun x => cls (pipeLoc (trickleRange nfo) s x)) (p.keysAt (trickleRange nfo) K0 E s)
      (hu.shape s hsn) (p.startOf r c.before fin s) (pipeView (trickleRange nfo) s (c.q r) v)
      (fun x => decide (pipeLoc (trickleRange nfo) s x = .var x))
      (fun x hx ht => (hg x).1 hx fun h => by simpa using ht h)
      (fun x hx hf hk => (hg x).2 hx hf hk)
      (fun x hx => by
        by_cases hv : pipeLoc (trickleRange nfo) s x = .var x
        · rw [decide_eq_true hv]
          exact covered_true x _
        · rw [decide_eq_false hv]
          apply covered_of_writtenBeforeRead
          by_cases hc : p.Carried x s
          · rw [loc_carried hck hc] at hx
            exact (hu.copies s x hsn hc hx).2 _
          · intro b e a heq hre
            exfalso
            apply hv
            apply loc_var hck hu hsn hc (Or.inr _)
            exact Stm.reads_names _ _ e (by rw [heq]; simp) x hre)
    have hv : ∀ x, x ∈ (p.stage s).code.wrNames → ¬ p.Carried x s →
        (p.runStage (trickleRange nfo) cls K0 E (c.q r) v s).1 (.var x) = ((p.stage s).code.run (p.startOf r c.before fin s)).env x := by
      intro x hx hc
      have hloc := loc_var hck hu hsn hc (Or.inl hx)
      simp only [PipeCode.runStage, pipeCapture, pipeBack, if_pos hloc]
      apply h2 x hx
      intro _
      simp only [decide_eq_true hloc]
      exact wrote_true ..
    refine ⟨?_, ?_, ?_, ?_, ?_⟩
    · intro k hk
      by_cases hks : k = s
      · subst hks
        simp only [if_pos]
        simpa [PipeCode.runStage, pipeView] using h1
      · simp only [if_neg hks]
        exact hi.evs k (by simpa [hks] using hk)
    · intro x k hk hw hc
      by_cases hks : k = s
      · subst hks
        exact hv x hw hc
      · have hkE : k ∈ E := by simpa [hks] using hk
        rw [runStage_var]
        · exact hi.wrote x k hkE hw hc
        · intro hsw hsl
          have hsc : ¬ p.Carried x s := fun h => by rw [loc_carried hck h] at hsl; cases hsl
          exact hks (one_writer hck hu (hEl k hkE) hsn hw hsw hc hsc)
    · intro x hx
      rw [runStage_var]
      · exact hi.kept x fun k hk => hx k (by simp [hk])
      · intro hsw hsl
        rw [loc_carried hck (hx s (by simp) hsw)] at hsl
        cases hsl
    · intro k x hk
      simp only [List.mem_append, List.mem_singleton, not_or] at hk
      have hne : pipeLoc (trickleRange nfo) s x ≠ .copy k x := fun h => hk.2 (loc_copy h).1
      simp only [PipeCode.runStage, pipeCapture, pipeBack, if_neg hne, hk.2, false_and, if_false]
      exact hi.copy k x hk.1
    · intro k x hk hc
      by_cases hks : k = s
      · subst hks
        obtain ⟨a, b, hab, ha, hbk⟩ := (carried_iff hck x (k + 1)).mp hc
        by_cases hck' : p.Carried x k
        · obtain ⟨a2, b2, hab2, ha2, -⟩ := (carried_iff hck x k).mp hck'
          rw [hab] at hab2
          simp only [Option.some.injEq, Prod.mk.injEq] at hab2
          obtain ⟨rfl, rfl⟩ := hab2
          have hloc := loc_carried hck hck'
          simp only [PipeCode.runStage, pipeCapture, pipeBack, if_pos hloc, hab, Option.map_some, Option.some.injEq]
          rw [if_neg (by omega)]
          have hff : cls (.copy k x) = .flipflop := by
            cases h : cls (.copy k x) with
            | flipflop => rfl
            | temp => exact absurd hc (hu.copies k x hsn hck' h).1
          by_cases hw : x ∈ (p.stage k).code.wrNames
          · apply h2 x hw
            rw [hloc, hff]
            simp
          · rw [h3 x hw, Stm.run_other _ _ x hw]
            simp only [pipeView, hloc]
            rw [hi.copy k x hsE]
            simp only [PipeCyc.v, hff, PipeCode.startOf, if_pos hck']
        · have hak : a = k := by
            by_contra hne
            exact hck' ((carried_iff hck x k).mpr ⟨a, b, hab, by omega, by omega⟩)
          subst hak
          obtain ⟨-, ⟨ioa, hioa, haw, -⟩, -⟩ := (C23_carried_iff p.ios nfo x a b hck).mp hab
          obtain ⟨ha1, rfl⟩ := (ios_get ..).mp hioa
          have := hv x (mem_varsOf.mp haw).1 hck'
          simp only [PipeCode.runStage, pipeCapture] at this ⊢
          simp only [hab, Option.map_some, and_self, if_true]
          exact this
      · have hkE : k ∈ E := by simpa [hks] using hk
        have hne : pipeLoc (trickleRange nfo) s x ≠ .copy k x := fun h => hks (loc_copy h).1
        simp only [PipeCode.runStage, pipeCapture, pipeBack, if_neg hne, hks, false_and, if_false]
        exact hi.cap k x hkE hc

end

/-! ### Items -/

/-- Code gives the same from values that agree on what it uses, but for names it always assigns first. -/
theorem Stm.run_agree (s : Stm V) (hs : s.Shape) (m1 m2 : String → V)
    (h : ∀ x, x ∈ s.rdNames ∨ x ∈ s.wrNames → s.Sets x ∨ m1 x = m2 x) :
    (s.run m1).evs = (s.run m2).evs ∧ ∀ x ∈ s.wrNames, (s.run m1).env x = (s.run m2).env x := by
  classical
  let cls : String → Store := fun x => if s.Sets x then .temp else .flipflop
  have hcls : ∀ x, cls x = .temp → s.Sets x := by
    intro x hx
    by_contra hn
    simp only [cls, if_neg hn] at hx
    cases hx
  have hcov : ∀ m x, cls x = .temp → Covered x false (s.run m).evs := fun m x hx => covered_of_writtenBeforeRead ((hcls x hx) m).1
  have hwr : ∀ m x, cls x = .temp → wrote x false (s.run m).evs = true := by
    intro m x hx
    obtain ⟨-, e, he, hxe⟩ := (hcls x hx) m
    simp only [wrote, Bool.false_or, List.any_eq_true, decide_eq_true_eq]
    exact ⟨e, he, hxe⟩
  have h1 := s.refineOn (cls := cls) (fun _ => true) hs m1 ⟨m1, m1, none, []⟩ (fun _ => false) (fun _ _ _ => rfl) (fun _ _ _ _ => rfl) (hcov m1)
  have h2 := s.refineOn (cls := cls) (fun _ => true) hs m2 ⟨m1, m1, none, []⟩ (fun _ => false) (fun x hx ht => by
    rcases h x (hx.elim Or.inr fun h => Or.inl h.1) with h3 | h3
    · exact absurd (ht (by simp only [cls, if_pos h3])) (by simp)
    · exact h3) (fun x _ _ hk => by cases hk) (hcov m2)
  refine ⟨?_, fun x hx => ?_⟩
  · have := h1.1.symm.trans h2.1
    simpa using this
  · rw [← h1.2.1 x hx (hwr m1 x), ← h2.2.1 x hx (hwr m2 x)]

theorem together_run (p : PipeCode V) (m : String → V) : ∀ n, (∀ s, s < n → (p.stage s).code.NoExit) →
    ((p.together n).run m).out = none ∧
    ((p.together (n + 1)).run m).env = ((p.stage n).code.run ((p.together n).run m).env).env ∧
    ((p.together (n + 1)).run m).evs = ((p.together n).run m).evs ++ ((p.stage n).code.run ((p.together n).run m).env).evs := by
  intro n h
  have ho : ((p.together n).run m).out = none := by
    induction n with
    | zero => rfl
    | succ n ih =>
      have h1 := ih fun s hs => h s (by omega)
      simp only [PipeCode.together, Stm.run, h1]
      exact Stm.run_noExit _ (h n (by omega)) _
  refine ⟨ho, ?_, ?_⟩ <;> simp only [PipeCode.together, Stm.run, ho]

theorem together_evs (p : PipeCode V) (h : ∀ s, s < p.n → (p.stage s).code.NoExit) (m : String → V) : ∀ n, n ≤ p.n →
    ((p.together n).run m).evs = (List.range n).flatMap fun s => ((p.stage s).code.run ((p.together s).run m).env).evs := by
  intro n
  induction n with
  | zero => intro _; rfl
  | succ n ih =>
    intro hn
    rw [(together_run p m n fun s hs => h s (by omega)).2.2, ih (by omega), List.range_succ, List.flatMap_append]
    simp

theorem together_other (p : PipeCode V) (h : ∀ s, s < p.n → (p.stage s).code.NoExit) (m : String → V) (x : String) : ∀ n, n ≤ p.n →
    (∀ s, s < n → x ∉ (p.stage s).code.wrNames) → ((p.together n).run m).env x = m x := by
  intro n
  induction n with
  | zero => intros; rfl
  | succ n ih =>
    intro hn hx
    rw [(together_run p m n fun s hs => h s (by omega)).2.1, Stm.run_other _ _ x (hx n (by omega)), ih (by omega) fun s hs => hx s (by omega)]

theorem usual_of_plain {cls : PCell → Store} {K0 : Keys} {order : List Nat}
    (hord : orderPipelineStages p.accs = some order)
    (hno : ∀ s x, s < p.n → ¬ (p.stage s).Special x) (hshape : ∀ s, s < p.n → (p.stage s).code.Shape)
    (hagain : ∀ x i j, i < j → j < p.n → x ∉ p.outs → x ∈ (p.stage i).code.wrNames → x ∈ (p.stage j).code.wrNames → p.Carried x j)
    (hcopies : ∀ s x, s < p.n → p.Carried x s → cls (.copy s x) = .temp →
      ¬ p.Carried x (s + 1) ∧ ∀ m, WrittenBeforeRead x ((p.stage s).code.run m).evs)
    (hout : ∀ x i j, i < j → j < p.n → x ∈ p.outs → x ∈ (p.stage i).code.wrNames → x ∉ (p.stage j).code.rdNames) :
    p.Usual cls K0 order := by
  have hg : ∀ j acc, p.accs[j]? = some acc → j < p.n ∧ acc = ⟨((p.stage j).io p.outs).read, ((p.stage j).io p.outs).backward, ((p.stage j).io p.outs).forward⟩ := by
    intro j acc h
    simp only [PipeCode.accs, List.getElem?_map, Option.map_eq_some_iff] at h
    obtain ⟨io, h1, rfl⟩ := h
    obtain ⟨h2, rfl⟩ := (ios_get ..).mp h1
    exact ⟨h2, rfl⟩
  have hrange : order = List.range p.n := by
    have := C24_natural_order p.accs fun s o => by
      rintro ⟨ss, so, w, h1, h2, -, h3⟩
      obtain ⟨hs, rfl⟩ := hg s ss h1
      rcases h3 with ⟨-, h3⟩ | ⟨-, h3⟩
      · exact hno s w hs (Or.inl (mem_varsOf.mp h3).1)
      · exact hno s w hs (Or.inr (Or.inl (mem_varsOf.mp h3).1))
    rw [hord, Option.some.injEq] at this
    simpa [PipeCode.accs, PipeCode.ios] using this
  refine ⟨hshape, hagain, hcopies, fun k s x hks hs hx => absurd (Or.inl hx) (hno k x (by omega)), ?_⟩
  intro k s x hk hs hks hkw hkc hr hc _ _
  rcases Nat.lt_or_gt_of_ne hks with hlt | hgt
  · exfalso
    by_cases ho : x ∈ p.outs
    · exact hout x k s hlt hs ho hkw hr
    · exact hc ⟨ho, ⟨k, hlt, hk, hkw, hno k x hk⟩, s, le_rfl, hs, hr⟩
  · right
    refine ⟨List.range k, (List.range' (k + 1) (p.n - (k + 1))), ?_, List.mem_range.mpr hgt⟩
    have h1 : p.n = k + ((p.n - (k + 1)) + 1) := by omega
    rw [hrange, h1, List.range_eq_range', List.range_eq_range', ← List.range'_append_1, List.range'_succ]
    simp
    omega

/-- Stage `s` in cycle `t + s` against the stages one after the other. -/
theorem item_sequence (hck : checkPipeline p.ios = .ok nfo) (hno : ∀ s x, s < p.n → ¬ (p.stage s).Special x)
    (hshape : ∀ s, s < p.n → (p.stage s).code.Shape ∧ (p.stage s).code.NoExit)
    (hagain : ∀ x i j, i < j → j < p.n → x ∉ p.outs → x ∈ (p.stage i).code.wrNames → x ∈ (p.stage j).code.wrNames → p.Carried x j)
    (hout : ∀ x i j, i < j → j < p.n → x ∈ p.outs → x ∈ (p.stage i).code.wrNames → x ∉ (p.stage j).code.rdNames)
    {before : Nat → String → V} {start stop : Nat → Nat → String → V} (hm : p.Means before start stop) (t : Nat)
    (hsteady : ∀ s x, s < p.n → x ∈ (p.stage s).code.rdNames ∨ x ∈ (p.stage s).code.wrNames →
      (∀ a, a < s → x ∉ (p.stage a).code.wrNames) → (p.stage s).code.Sets x ∨ before (t + s) x = before t x) :
    ∀ s, s < p.n → (∀ x, p.Carried x s → start (t + s) s x = ((p.together s).run (before t)).env x) ∧
      ((p.stage s).code.run ((p.together s).run (before t)).env).evs = ((p.stage s).code.run (start (t + s) s)).evs ∧
      ∀ x ∈ (p.stage s).code.wrNames, stop (t + s) s x = ((p.together (s + 1)).run (before t)).env x := by
  intro s
  induction s with
  | zero =>
    intro hs
    refine ⟨?_, ?_⟩
    · rintro x ⟨-, ⟨a, ha, -⟩, -⟩
      omega
    have hst : start (t + 0) 0 = before t := by
      funext x
      rw [Nat.add_zero, hm.other t 0 x hs]
      · rintro ⟨-, ⟨a, ha, -⟩, -⟩
        omega
      · intro k hk _ hx
        exact hno k x hk (Or.inl hx)
      · intro k hk
        omega
    have hz : ((p.together 0).run (before t)).env = before t := rfl
    rw [hst, (together_run p (before t) 0 fun s hs => by omega).2.1, hz]
    refine ⟨rfl, fun x _ => ?_⟩
    rw [hm.code (t + 0) 0 hs, hst]
  | succ s ih =>
    intro hs
    obtain ⟨ih1, ih2, ih3⟩ := ih (by omega)
    have hne : ∀ k, k < p.n → (p.stage k).code.NoExit := fun k hk => (hshape k hk).2
    have hcar : ∀ x, p.Carried x (s + 1) → start (t + (s + 1)) (s + 1) x = ((p.together (s + 1)).run (before t)).env x := by
      intro x hc
      have h1 : start (t + (s + 1)) (s + 1) x = stop (t + s) s x := hm.carried (t + s) (s + 1) x hs hc
      rw [h1]
      by_cases hw : x ∈ (p.stage s).code.wrNames
      · exact ih3 x hw
      · rw [hm.code (t + s) s (by omega), Stm.run_other _ _ x hw, (together_run p (before t) s fun k hk => hne k (by omega)).2.1, Stm.run_other _ _ x hw]
        apply ih1
        obtain ⟨ho, ⟨a, ha, han, haw, hasp⟩, b, hb, hbn, hbr⟩ := hc
        refine ⟨ho, ⟨a, ?_, han, haw, hasp⟩, b, by omega, hbn, hbr⟩
        have : a ≠ s := fun h => hw (h ▸ haw)
        omega
    refine ⟨hcar, ?_⟩
    have hagree := (p.stage (s + 1)).code.run_agree (hshape (s + 1) hs).1 ((p.together (s + 1)).run (before t)).env (start (t + (s + 1)) (s + 1)) (by
      intro x hx
      by_cases hc : p.Carried x (s + 1)
      · exact Or.inr (hcar x hc).symm
      · have hnw : ∀ a, a < s + 1 → x ∉ (p.stage a).code.wrNames := by
          intro a ha haw
          have han : a < p.n := by omega
          rcases hx with hr | hw
          · by_cases ho : x ∈ p.outs
            · exact hout x a (s + 1) ha hs ho haw hr
            · exact hc ⟨ho, ⟨a, ha, han, haw, hno a x han⟩, s + 1, le_rfl, hs, hr⟩
          · by_cases ho : x ∈ p.outs
            · obtain ⟨-, h⟩ := (C27_accepted_iff p.ios).mp ⟨nfo, hck⟩
              refine (h a (s + 1) _ _ ha ((ios_get ..).mpr ⟨han, rfl⟩) ((ios_get ..).mpr ⟨hs, rfl⟩)).1 x ⟨?_, ?_⟩
              · simpa [PStage.io] using ⟨haw, ho⟩
              · simpa [PStage.io] using ⟨hw, ho⟩
            · exact hc (hagain x a (s + 1) ha hs ho haw hw)
        rcases hsteady (s + 1) x hs hx hnw with h | h
        · exact Or.inl h
        · right
          rw [together_other p hne _ x (s + 1) (by omega) hnw, hm.other (t + (s + 1)) (s + 1) x hs hc
            (fun k hk _ hx => hno k x hk (Or.inl hx)) (fun k hk hx => hno k x (by omega) (Or.inr (Or.inl hx))), h])
    refine ⟨hagree.1, fun x hx => ?_⟩
    rw [hm.code (t + (s + 1)) (s + 1) hs, (together_run p (before t) (s + 1) fun k hk => hne k (by omega)).2.1]
    exact (hagree.2 x hx).symm

end

end Silice
