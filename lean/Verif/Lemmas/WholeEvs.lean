import Verif.Lemmas.Whole
import Verif.Lemmas.Access
import Verif.Model.AccessUnit

/-! What the code of a state does in a cycle follows a path through the blocks. -/

set_option autoImplicit false

namespace Silice

section
variable {B : Type}

/-- Control goes from a block through blocks that are not states, the last one is `c`. -/
inductive Along (g : Cfg B) : B → List B → B → Prop where
  | one {b : B} : Along g b [b] b
  | cons {b n c : B} {tr : List B} : n ∈ g.children b → (g.blk n).isState = false → Along g n tr c → Along g b (b :: tr) c

theorem Along.append {g : Cfg B} {b c n d : B} {t1 t2 : List B} (h : Along g b t1 c) (hn : n ∈ g.children c) (hs : (g.blk n).isState = false)
    (h2 : Along g n t2 d) : Along g b (t1 ++ t2) d := by
  induction h with
  | one => exact .cons hn hs h2
  | cons h3 h4 _ ih => exact .cons h3 h4 (ih hn)

theorem Walk.along {g : Cfg B} {acc : B → List (List String × List String)} {head b c : B} {l tr : List B} (h : Walk (accGraph acc g) head l b)
    (hb : Enters (accGraph acc g) l b) (ha : Along g b tr c) :
    ∀ t1 d t2, tr = t1 ++ d :: t2 → Walk (accGraph acc g) head (l ++ t1) d ∧ Enters (accGraph acc g) (l ++ t1) d := by
  induction ha generalizing l with
  | @one b =>
    intro t1 d t2 e
    cases t1 with
    | nil => simp only [List.nil_append, List.cons.injEq] at e; rw [← e.1, List.append_nil]; exact ⟨h, hb⟩
    | cons y t => simp at e
  | @cons b n c tr hn hs _ ih =>
    intro t1 d t2 e
    cases t1 with
    | nil => simp only [List.nil_append, List.cons.injEq] at e; rw [← e.1, List.append_nil]; exact ⟨h, hb⟩
    | cons y t =>
      simp only [List.cons_append, List.cons.injEq] at e
      obtain ⟨rfl, e⟩ := e
      have := ih (l := l ++ [b]) (.step h hb hn) (.inr hs) t d t2 e
      rw [List.append_assoc] at this
      exact this

variable {V : Type} (D : DataOf V) (ins : B → List PIns) (g : Cfg B)

/-- Names read and names assigned as a whole by a block. -/
def blockEvs (b : B) : List (List String × List String) :=
  ((ins b).flatMap D.ins).map (fun i => (i.reads, i.writes)) ++ testAcc D (g.blk b).act

/-- Names of what was done. -/
def evNames (evs : List (Ev V)) : List (List String × List String) := evs.map fun e => (e.reads, e.writes)

/-- The names belong to a path from `b`; with `k = false` the last block of it is followed by `stop`. -/
def Trail (stop : Option B) (k : Bool) (b : B) (evs : List (List String × List String)) : Prop :=
  ∃ tr c, Along g b tr c ∧ evs = tr.flatMap (blockEvs D ins g) ∧
    (k = false → ∃ n, stop = some n ∧ n ∈ g.children c ∧ (g.blk n).isState = false)

/-- The names of what comes after block `b`. -/
def After (stop : Option B) (k : Bool) (b : B) (evs : List (List String × List String)) : Prop :=
  (evs = [] ∧ (k = false → ∃ n, stop = some n ∧ n ∈ g.children b ∧ (g.blk n).isState = false)) ∨
    ∃ n, n ∈ g.children b ∧ (g.blk n).isState = false ∧ Trail D ins g stop k n evs

/-- The names of what comes after a conditional followed by `a`. -/
def Resume (stop : Option B) (k : Bool) (a : B) (evs : List (List String × List String)) : Prop :=
  (evs = [] ∧ stop = some a) ∨ Trail D ins g stop k a evs

variable {D ins g}

theorem After.trail {stop : Option B} {k : Bool} {b : B} {evs : List (List String × List String)} (h : After D ins g stop k b evs) :
    Trail D ins g stop k b (blockEvs D ins g b ++ evs) := by
  rcases h with ⟨rfl, h⟩ | ⟨n, h1, h2, tr, c, h3, rfl, h4⟩
  · exact ⟨[b], b, .one, by simp, h⟩
  · exact ⟨b :: tr, c, .cons h1 h2 h3, by simp, h4⟩

theorem Trail.resume {stop : Option B} {k : Bool} {b a : B} {e1 e2 : List (List String × List String)} (h : Trail D ins g (some a) false b e1)
    (h2 : Resume D ins g stop k a e2) : Trail D ins g stop k b (e1 ++ e2) := by
  obtain ⟨tr, c, h3, rfl, h4⟩ := h
  obtain ⟨n, e, h5, h6⟩ := h4 rfl
  cases e
  rcases h2 with ⟨rfl, rfl⟩ | ⟨tr2, d, h7, rfl, h8⟩
  · exact ⟨tr, c, h3, by simp, fun _ => ⟨a, rfl, h5, h6⟩⟩
  · exact ⟨tr ++ tr2, d, h3.append h5 h6 h7, by simp, h8⟩

theorem seqIns_names : ∀ (is : List (Ins V)) {L : Type} (m : String → V),
    evNames ((seqIns is : Stm V L).run m).evs = is.map fun i => (i.reads, i.writes)
  | [], _, _ => rfl
  | i :: is, _, m => by
    simp only [seqIns, Stm.run, evNames, List.map_cons, List.singleton_append]
    rw [← seqIns_names is]
    rfl

theorem run_seq {L : Type} {x y : Stm V L} (hx : x.NoExit) (m : String → V) : evNames ((Stm.seq x y).run m).evs =
    evNames (x.run m).evs ++ evNames (y.run (x.run m).env).evs := by
  simp only [Stm.run]
  rw [Stm.run_noExit _ hx]
  simp [evNames]

theorem body_names (b : B) (y : Code B) (m : String → V) : evNames (((Code.seq (.body b) y).stm D ins).run m).evs =
    ((ins b).flatMap D.ins).map (fun i => (i.reads, i.writes)) ++ evNames ((y.stm D ins).run (assignAll ((ins b).flatMap D.ins) m)).evs := by
  show evNames ((Stm.seq (seqIns _) (y.stm D ins)).run m).evs = _
  rw [run_seq (seqIns_noExit _), seqIns_names, seqIns_env]

/-- Names of the code that follows the body of a block. -/
theorem Trail.body {stop : Option B} {k : Bool} {b : B} {y : Code B} {m : String → V}
    (h : ∀ m, ∃ evs, evNames ((y.stm D ins).run m).evs = testAcc D (g.blk b).act ++ evs ∧ After D ins g stop k b evs) :
    Trail D ins g stop k b (evNames (((Code.seq (.body b) y).stm D ins).run m).evs) := by
  obtain ⟨evs, h1, h2⟩ := h (assignAll ((ins b).flatMap D.ins) m)
  rw [body_names, h1, ← List.append_assoc]
  exact h2.trail

theorem ite_names (c : Nat) (x y : Code B) (m : String → V) : evNames (((Code.ite c x y).stm D ins).run m).evs =
    (D.testReads c, []) :: (if D.test c ((D.testReads c).map m) then evNames ((x.stm D ins).run m).evs else evNames ((y.stm D ins).run m).evs) := by
  simp only [Code.stm, Stm.run]
  by_cases h : D.test c ((D.testReads c).map m) = true
  · simp [h, Brs.run, evNames]
  · simp [h, Brs.run, evNames]

theorem wend_names (c : Nat) (x : Code B) (b : B) (m : String → V) : evNames (((Code.wend c x b).stm D ins).run m).evs =
    (D.testReads c, []) :: (if D.test c ((D.testReads c).map m) then evNames ((x.stm D ins).run m).evs else []) := by
  simp only [Code.stm, Stm.run]
  by_cases h : D.test c ((D.testReads c).map m) = true
  · simp [h, Brs.run, evNames]
  · simp [h, evNames]

theorem case_names (c : Nat) (es : List (Option Nat × Code B)) (m : String → V) :
    evNames (((Code.case c es).stm D ins).run m).evs = [(D.labelReads c, [])] ∨
    ∃ e ∈ es, evNames (((Code.case c es).stm D ins).run m).evs = (D.labelReads c, []) :: evNames ((e.2.stm D ins).run m).evs := by
  simp only [Code.stm, Stm.run]
  cases h : pickIdx (fun v => D.label c v ((D.labelReads c).map m)) (es.map (·.1)) with
  | none => exact .inl (by simp [evNames])
  | some k =>
    obtain ⟨e, he, _⟩ := (pickIdx_pick _ es).1 k h
    refine .inr ⟨e, List.mem_of_getElem? he, ?_⟩
    simp only [brs_run D ins es k e he, evNames, List.map_cons]

variable [DecidableEq B]

/-- The code of a state does what the blocks of a path say. -/
theorem emit_trail {num : Num B} {st : Option B} {b : B} {k : Bool} (h : Reg g num st b k) :
    ∀ {f : Nat} {code : Code B}, emitFrom g num f st b = some code → ∀ m : String → V, Trail D ins g st k b (evNames ((code.stm D ins).run m).evs) := by
  -- entering a side that ends
  have enterEnds : ∀ (st : Option B) (b a i : B) (f : Nat) (c : Code B), i ∈ g.children b → ((g.blk i).isState = false →
      ∀ {f : Nat} {code : Code B}, emitFrom g num f (some a) i = some code →
        ∀ m : String → V, Trail D ins g (some a) true i (evNames ((code.stm D ins).run m).evs)) →
      (if (g.blk i).isState then some (.jump i) else emitFrom g num f (some a) i) = some c →
      ∀ m : String → V, After D ins g st true b (evNames ((c.stm D ins).run m).evs) := by
    intro st b a i f c hib hi hc m
    by_cases hs : (g.blk i).isState = true
    · rw [if_pos hs] at hc; cases hc; exact .inl ⟨rfl, fun h => nomatch h⟩
    · rw [if_neg hs] at hc
      obtain ⟨tr, d, h1, h2, _⟩ := hi (by simpa using hs) hc m
      exact .inr ⟨i, hib, by simpa using hs, tr, d, h1, h2, fun h => nomatch h⟩
  -- entering a side that stays
  have enterStays : ∀ (b a i : B) (f : Nat) (c : Code B), i ∈ g.children b → (g.blk i).isState = false →
      Reg g num (some a) i false →
      (∀ {f : Nat} {code : Code B}, emitFrom g num f (some a) i = some code →
        ∀ m : String → V, Trail D ins g (some a) false i (evNames ((code.stm D ins).run m).evs)) →
      (if (g.blk i).isState then some (.jump i) else emitFrom g num f (some a) i) = some c →
      c.stays ∧ ∀ m : String → V, After D ins g (some a) false b (evNames ((c.stm D ins).run m).evs) := by
    intro b a i f c hib hs hr hi hc
    rw [if_neg (by simp [hs])] at hc
    exact ⟨(emit_shaped hr hc).2 rfl, fun m => .inr ⟨i, hib, hs, hi hc m⟩⟩
  -- continuing
  have cont : ∀ (st : Option B) (a : B) (k : Bool) (f : Nat) (c : Code B), (g.blk a).isState = false →
      (st ≠ some a → ∀ {f : Nat} {code : Code B}, emitFrom g num f st a = some code →
        ∀ m : String → V, Trail D ins g st k a (evNames ((code.stm D ins).run m).evs)) →
      (if (g.blk a).isState then some (.jump a) else if st = some a then some .skip else emitFrom g num f st a) = some c →
      ∀ m : String → V, Resume D ins g st k a (evNames ((c.stm D ins).run m).evs) := by
    intro st a k f c hs hi hc m
    rw [if_neg (by simp [hs])] at hc
    by_cases hst : st = some a
    · rw [if_pos hst] at hc; cases hc; exact .inl ⟨rfl, hst⟩
    · rw [if_neg hst] at hc; exact .inr (hi hst hc m)
  induction h with
  | @stop st b ha =>
    intro f code hc m
    cases f with
    | zero => cases hc
    | succ f =>
      simp only [emitFrom, ha] at hc; cases hc
      exact Trail.body fun m => ⟨[], by rw [ha]; rfl, .inl ⟨rfl, fun h => nomatch h⟩⟩
  | @ret st b k ha =>
    intro f code hc m
    cases f with
    | zero => cases hc
    | succ f =>
      simp only [emitFrom, ha] at hc; cases hc
      exact Trail.body fun m => ⟨[], by rw [ha]; rfl, .inl ⟨rfl, fun h => nomatch h⟩⟩
  | @call st b t r ha =>
    intro f code hc m
    cases f with
    | zero => cases hc
    | succ f =>
      simp only [emitFrom, ha] at hc; cases hc
      exact Trail.body fun m => ⟨[], by rw [ha]; rfl, .inl ⟨rfl, fun h => nomatch h⟩⟩
  | @wait st b w n k ha hw hn =>
    intro f code hc m
    cases f with
    | zero => cases hc
    | succ f =>
      simp only [emitFrom, ha] at hc; cases hc
      exact Trail.body fun m => ⟨[], by rw [ha]; rfl, .inl ⟨rfl, fun h => nomatch h⟩⟩
  | @gotoState st b n ha hn =>
    intro f code hc m
    cases f with
    | zero => cases hc
    | succ f =>
      simp only [emitFrom, ha, hn, if_true, Option.map_some, Option.some.injEq] at hc
      subst hc
      exact Trail.body fun m => ⟨[], by rw [ha]; rfl, .inl ⟨rfl, fun h => nomatch h⟩⟩
  | @gotoStop b n ha hn =>
    intro f code hc m
    cases f with
    | zero => cases hc
    | succ f =>
      simp only [emitFrom, ha, hn, if_true, Bool.false_eq_true, if_false, Option.map_some, Option.some.injEq] at hc
      subst hc
      exact Trail.body fun m => ⟨[], by rw [ha]; rfl, .inl ⟨rfl, fun _ => ⟨n, rfl, by simp [Cfg.children, ha], hn⟩⟩⟩
  | @gotoMore st b n k ha hn hst _ ih =>
    intro f code hc m
    cases f with
    | zero => cases hc
    | succ f =>
      simp only [emitFrom, ha, Option.map_eq_some_iff] at hc
      obtain ⟨c, hc, rfl⟩ := hc
      refine Trail.body fun m => ⟨_, by rw [ha]; rfl, ?_⟩
      rcases cont st n k f c hn (fun _ => ih) hc m with h | h
      · exact absurd h.2 hst
      · exact .inr ⟨n, by simp [Cfg.children, ha], hn, h⟩
  | @ifBoth st b i it e et a c x y k ha hna hpp hi r1 he r2 hk1 _ ih1 ih2 ih3 =>
    intro f code hc m
    cases f with
    | zero => cases hc
    | succ f =>
      simp only [emitFrom, ha, Option.bind_eq_some_iff] at hc
      obtain ⟨ci, h1, ce, h2, hc⟩ := hc
      have t1 := enterStays b a i f ci (by simp [Cfg.children, ha]) hi r1 ih1 h1
      have t2 := enterStays b a e f ce (by simp [Cfg.children, ha]) he r2 ih2 h2
      rw [if_neg (by simp [hna]), if_neg (by rw [hpp]; cases (num.pid et).isSome <;> decide), if_neg (by rw [hpp]; cases (num.pid et).isSome <;> decide), Option.map_eq_some_iff] at hc
      obtain ⟨ca, hc, rfl⟩ := hc
      have t3 := cont st a k f ca hna ih3 hc
      show Trail D ins g st k b (evNames ((Stm.seq ((Code.seq (.body b) (.ite c ci ce)).stm D ins) (ca.stm D ins)).run m).evs)
      rw [run_seq (stm_noExit D ins (.seq (.body b) (.ite c ci ce)) ⟨trivial, t1.1, t2.1⟩)]
      refine (Trail.body fun m => ?_).resume (t3 _)
      rw [ite_names, ha]
      refine ⟨if _ then _ else _, rfl, ?_⟩
      split
      · exact t1.2 m
      · exact t2.2 m
  | @ifElseEnds st b i it e et a c x y ha hna hit het hi r1 _ _ ih1 ih2 ih3 =>
    intro f code hc m
    cases f with
    | zero => cases hc
    | succ f =>
      simp only [emitFrom, ha, Option.bind_eq_some_iff] at hc
      obtain ⟨ci, h1, ce, h2, hc⟩ := hc
      rw [if_neg (by simp [hi])] at h1
      have t2 := enterEnds st b a e f ce (by simp [Cfg.children, ha]) ih2 h2
      rw [if_neg (by simp [hna]), if_pos (by simp [hit, het]), Option.map_eq_some_iff] at hc
      obtain ⟨ca, hc, rfl⟩ := hc
      refine Trail.body fun m => ?_
      rw [ite_names, ha]
      refine ⟨if _ then _ else _, rfl, ?_⟩
      split
      · show After D ins g st true b (evNames ((Stm.seq (ci.stm D ins) (ca.stm D ins)).run m).evs)
        rw [run_seq (stm_noExit D ins ci ((emit_shaped r1 h1).2 rfl))]
        exact .inr ⟨i, by simp [Cfg.children, ha], hi, (ih1 h1 m).resume (.inr (ih3 hc _))⟩
      · exact t2 m
  | @ifIfEnds st b i it e et a c x y ha hna hit het _ he r2 _ ih1 ih2 ih3 =>
    intro f code hc m
    cases f with
    | zero => cases hc
    | succ f =>
      simp only [emitFrom, ha, Option.bind_eq_some_iff] at hc
      obtain ⟨ci, h1, ce, h2, hc⟩ := hc
      rw [if_neg (by simp [he])] at h2
      have t1 := enterEnds st b a i f ci (by simp [Cfg.children, ha]) ih1 h1
      rw [if_neg (by simp [hna]), if_neg (by simp [hit]), if_pos (by simp [hit, het]), Option.map_eq_some_iff] at hc
      obtain ⟨ca, hc, rfl⟩ := hc
      refine Trail.body fun m => ?_
      rw [ite_names, ha]
      refine ⟨if _ then _ else _, rfl, ?_⟩
      split
      · exact t1 m
      · show After D ins g st true b (evNames ((Stm.seq (ce.stm D ins) (ca.stm D ins)).run m).evs)
        rw [run_seq (stm_noExit D ins ce ((emit_shaped r2 h2).2 rfl))]
        exact .inr ⟨e, by simp [Cfg.children, ha], he, (ih2 h2 m).resume (.inr (ih3 hc _))⟩
  | @ifState st b i it e et a c x y ha hna _ _ ih1 ih2 =>
    intro f code hc m
    cases f with
    | zero => cases hc
    | succ f =>
      simp only [emitFrom, ha, Option.bind_eq_some_iff] at hc
      obtain ⟨ci, h1, ce, h2, hc⟩ := hc
      rw [if_pos hna, Option.some.injEq] at hc
      subst hc
      refine Trail.body fun m => ?_
      rw [ite_names, ha]
      refine ⟨if _ then _ else _, rfl, ?_⟩
      split
      · exact enterEnds st b a i f ci (by simp [Cfg.children, ha]) ih1 h1 m
      · exact enterEnds st b a e f ce (by simp [Cfg.children, ha]) ih2 h2 m
  | @switchFall st b a c cs k ha hna hcs hr hk1 _ ih1 ih2 =>
    intro f code hc m
    cases f with
    | zero => cases hc
    | succ f =>
      simp only [emitFrom, ha, Option.bind_eq_some_iff] at hc
      obtain ⟨es, h1, hc⟩ := hc
      have t1 : ∀ e ∈ es, e.2.stays ∧ ∀ m : String → V, After D ins g (some a) false b (evNames ((e.2.stm D ins).run m).evs) := by
        intro e he
        obtain ⟨p, hp, h2⟩ := mapM_entries (en := fun n => if (g.blk n).isState then some (.jump n) else emitFrom g num f (some a) n) h1 e he
        refine enterStays b a p.2 f e.2 ?_ (hcs p hp) (hr p hp) (ih1 p hp) h2
        simp only [Cfg.children, ha, List.mem_append]
        exact .inl (List.mem_map_of_mem hp)
      rw [if_neg (by simp [hna]), Option.map_eq_some_iff] at hc
      obtain ⟨ca, hc, rfl⟩ := hc
      have t3 := cont st a k f ca hna ih2 hc
      show Trail D ins g st k b (evNames ((Stm.seq ((Code.seq (.body b) (.case c es)).stm D ins) (ca.stm D ins)).run m).evs)
      rw [run_seq (stm_noExit D ins (.seq (.body b) (.case c es)) ⟨trivial, entriesStay_of fun e he => (t1 e he).1⟩)]
      refine (Trail.body fun m => ?_).resume (t3 _)
      rcases case_names c es m with e | ⟨en, hen, e⟩ <;> rw [e, ha]
      · exact ⟨[], rfl, .inl ⟨rfl, fun _ => ⟨a, rfl, by simp [Cfg.children, ha], hna⟩⟩⟩
      · exact ⟨_, rfl, (t1 en hen).2 m⟩
  | @switchState st b a c cs ha hna hdef _ ih1 =>
    intro f code hc m
    cases f with
    | zero => cases hc
    | succ f =>
      simp only [emitFrom, ha, Option.bind_eq_some_iff] at hc
      obtain ⟨es, h1, hc⟩ := hc
      rw [if_pos hna, Option.some.injEq] at hc
      subst hc
      refine Trail.body fun m => ?_
      rcases case_names c es m with e | ⟨en, hen, e⟩ <;> rw [e, ha]
      · exact ⟨[], rfl, .inl ⟨rfl, fun h => nomatch h⟩⟩
      · obtain ⟨p, hp, h2⟩ := mapM_entries (en := fun n => if (g.blk n).isState then some (.jump n) else emitFrom g num f (some a) n) h1 en hen
        refine ⟨_, rfl, enterEnds st b a p.2 f en.2 ?_ (ih1 p hp) h2 m⟩
        simp only [Cfg.children, ha, List.mem_append]
        exact .inl (List.mem_map_of_mem hp)
  | @loop st b i a c ha _ _ ih1 ih2 =>
    intro f code hc m
    cases f with
    | zero => cases hc
    | succ f =>
      simp only [emitFrom, ha, Option.bind_eq_some_iff] at hc
      obtain ⟨ci, h1, hc⟩ := hc
      have t1 := enterEnds st b a i f ci (by simp [Cfg.children, ha]) ih1 h1
      by_cases hna : (g.blk a).isState = true
      · rw [if_pos hna, Option.some.injEq] at hc
        subst hc
        refine Trail.body fun m => ?_
        rw [wend_names, ha]
        refine ⟨if _ then _ else _, rfl, ?_⟩
        split
        · exact t1 m
        · exact .inl ⟨rfl, fun h => nomatch h⟩
      · rw [if_neg hna, Option.map_eq_some_iff] at hc
        obtain ⟨ca, hc, rfl⟩ := hc
        have hna' : (g.blk a).isState = false := by simpa using hna
        refine Trail.body fun m => ?_
        rw [ite_names, ha]
        refine ⟨if _ then _ else _, rfl, ?_⟩
        split
        · exact t1 m
        · exact .inr ⟨a, by simp [Cfg.children, ha], hna', ih2 hna' hc m⟩

end

/-! ### Variables written before they are read -/

section
variable {V B : Type} {D : DataOf V} {ins : B → List PIns} {g : Cfg B}

theorem flatMap_split {α β : Type} {f : α → List β} : ∀ {L : List α} {A Z : List β} {y : β}, L.flatMap f = A ++ y :: Z →
    ∃ t1 d t2 p1 p2, L = t1 ++ d :: t2 ∧ f d = p1 ++ y :: p2 ∧ A = t1.flatMap f ++ p1
  | [], A, Z, y, h => by simp at h
  | x :: L, A, Z, y, h => by
    rw [List.flatMap_cons, List.append_eq_append_iff] at h
    rcases h with ⟨a, rfl, h⟩ | ⟨c, h, h2⟩
    · obtain ⟨t1, d, t2, p1, p2, rfl, h1, rfl⟩ := flatMap_split h
      exact ⟨x :: t1, d, t2, p1, p2, rfl, h1, by simp⟩
    · cases c with
      | nil =>
        simp only [List.nil_append] at h2
        obtain ⟨t1, d, t2, p1, p2, rfl, h1, h3⟩ := flatMap_split (A := []) (by simpa using h2.symm)
        refine ⟨x :: t1, d, t2, p1, p2, rfl, h1, ?_⟩
        rw [List.append_nil] at h
        simp only [List.flatMap_cons, List.append_assoc, ← h3, List.append_nil, h]
      | cons c cs =>
        simp only [List.cons_append, List.cons.injEq] at h2
        obtain ⟨rfl, rfl⟩ := h2
        exact ⟨[], x, L, A, cs, rfl, h, by simp⟩

/-- The instructions and the test of a block, with what is assigned as a whole and in part. -/
def blockParts (D : DataOf V) (is : List PIns) (act : Act B) : List (List String × List String × List String) :=
  (is.flatMap D.ins).map (fun i => (i.reads, i.writes, i.parts ++ i.fields)) ++ (testAcc D act).map fun t => (t.1, t.2, [])

theorem blockAcc_parts (is : List PIns) (act : Act B) : blockAcc D is act = (blockParts D is act).map fun t => (t.1, t.2.1 ++ t.2.2) := by
  simp [blockAcc, blockParts, Function.comp_def]

theorem blockEvs_parts (b : B) : blockEvs D ins g b = (blockParts D (ins b) (g.blk b).act).map fun t => (t.1, t.2.1) := by
  simp [blockEvs, blockParts, Function.comp_def]

/-- No instruction of the blocks assigns `x` in part. -/
def Unparted (D : DataOf V) (ins : B → List PIns) (x : String) : Prop := ∀ b, ∀ i ∈ (ins b).flatMap D.ins, x ∉ i.parts ∧ x ∉ i.fields

theorem Unparted.parts {x : String} (h : Unparted D ins x) {b : B} {act : Act B} {t : List String × List String × List String}
    (ht : t ∈ blockParts D (ins b) act) : x ∉ t.2.2 := by
  rcases List.mem_append.mp ht with ht | ht
  · obtain ⟨i, hi, rfl⟩ := List.mem_map.mp ht
    have := h b i hi
    simp [this.1, this.2]
  · obtain ⟨i, hi, rfl⟩ := List.mem_map.mp ht
    simp

/-- When no path from the head reads `x` before writing it, what is done along a path writes `x` before reading it. -/
theorem Trail.written {x : String} (hp : Unparted D ins x) {head : B} (hx : ∀ l c, Walk (accGraph (fun b => blockAcc D (ins b) (g.blk b).act) g) head l c →
      Enters (accGraph (fun b => blockAcc D (ins b) (g.blk b).act) g) l c → ¬ ReadsFirst (accGraph (fun b => blockAcc D (ins b) (g.blk b).act) g) l c x)
    {st : Option B} {k : Bool} {evs : List (Ev V)} (h : Trail D ins g st k head (evNames evs)) : WrittenBeforeRead x evs := by
  obtain ⟨tr, c, ha, he, _⟩ := h
  intro before e after hev hr
  by_contra hno
  simp only [not_exists, not_and] at hno
  rw [hev] at he
  simp only [evNames, List.map_append, List.map_cons] at he
  obtain ⟨t1, d, t2, p1, p2, rfl, h1, h2⟩ := flatMap_split he.symm
  have hw := Walk.along (acc := fun b => blockAcc D (ins b) (g.blk b).act) (.start (head := head)) (.inl rfl) ha t1 d t2 rfl
  rw [List.nil_append] at hw
  -- nothing before assigns x
  have hbefore : ∀ p ∈ t1.flatMap (blockEvs D ins g) ++ p1, x ∉ p.2 := by
    intro p hp
    rw [← h2] at hp
    obtain ⟨e', he', rfl⟩ := List.mem_map.mp hp
    exact hno e' he'
  rw [blockEvs_parts, List.map_eq_append_iff] at h1
  obtain ⟨s1, s2, h3, rfl, h4⟩ := h1
  rw [List.map_eq_cons_iff] at h4
  obtain ⟨t, s3, rfl, h5, rfl⟩ := h4
  refine hx t1 d hw.1 hw.2 ⟨s1.map fun t => (t.1, t.2.1 ++ t.2.2), (t.1, t.2.1 ++ t.2.2), s3.map fun t => (t.1, t.2.1 ++ t.2.2), ?_, ?_, ?_, ?_⟩
  · show blockAcc D (ins d) (g.blk d).act = _
    rw [blockAcc_parts, h3]
    simp
  · simp only [Prod.mk.injEq] at h5
    simp only [h5.1]
    exact hr
  · intro b hb hxw
    obtain ⟨i, hi, hxi⟩ := List.mem_flatMap.mp hxw
    rw [show (accGraph (fun b => blockAcc D (ins b) (g.blk b).act) g b).instrs = blockAcc D (ins b) (g.blk b).act from rfl, blockAcc_parts] at hi
    obtain ⟨q, hq, rfl⟩ := List.mem_map.mp hi
    rcases List.mem_append.mp hxi with hxi | hxi
    · refine hbefore (q.1, q.2.1) (List.mem_append_left _ (List.mem_flatMap.mpr ⟨b, hb, ?_⟩)) hxi
      rw [blockEvs_parts]
      exact List.mem_map.mpr ⟨q, hq, rfl⟩
    · exact hp.parts hq hxi
  · intro j hj hxj
    obtain ⟨q, hq, rfl⟩ := List.mem_map.mp hj
    rcases List.mem_append.mp hxj with hxj | hxj
    · exact hbefore (q.1, q.2.1) (List.mem_append_right _ (List.mem_map.mpr ⟨q, hq, rfl⟩)) hxj
    · exact hp.parts (b := d) (act := (g.blk d).act) (by rw [h3]; exact List.mem_append_left _ hq) hxj

end

theorem WrittenBeforeRead.append {V : Type} {x : String} {e1 e2 : List (Ev V)} (h1 : WrittenBeforeRead x e1) (h2 : WrittenBeforeRead x e2) :
    WrittenBeforeRead x (e1 ++ e2) := by
  intro before e after h hr
  rw [List.append_eq_append_iff] at h
  rcases h with ⟨a, rfl, h⟩ | ⟨c, h, h3⟩
  · obtain ⟨e', he, hw⟩ := h2 a e after h hr
    exact ⟨e', List.mem_append_right _ he, hw⟩
  · cases c with
    | nil =>
      simp only [List.nil_append] at h3
      obtain ⟨e', he, _⟩ := h2 [] e after (by simpa using h3.symm) hr
      cases he
    | cons y c =>
      simp only [List.cons_append, List.cons.injEq] at h3
      obtain ⟨rfl, rfl⟩ := h3
      exact h1 before e c h hr

end Silice
