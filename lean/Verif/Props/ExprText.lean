import Verif.Lemmas.ExprLex

/-!
# C55: expressions keep their structure when written to Verilog
-/

set_option autoImplicit false

namespace Silice

/-- C55: for every expression of the grammar and all names given to its variables, Verilog reads the text that is written as the same
expression: the same operators applied to the same operands.
Partial: an operator must not be directly followed by one it merges with (`a & &b`), the condition of a `? :` must not be a `? :` without
parentheses, replications must not be directly nested (counterexamples below). -/
theorem C55_structure_partial (nm : String → Ref) (p : PExpr) (h : Gram nm (.e 0) p) (hc : p.Clear) : ReadAs (p.text nm) (p.verilog nm) := by
  refine ⟨p.toks nm, ?_, ?_⟩
  · have := lexes_text h hc [] [] ends_nil .done
    rwa [List.append_nil, List.append_nil] at this
  · have := (reads_back h hc).2 [] .nil
    rwa [List.append_nil] at this

/-- C55: a text has a single reading. -/
theorem C55_reading_unique (cs : List Char) (t t' : VExpr) (h : ReadAs cs t) (h' : ReadAs cs t') : t = t' := by
  obtain ⟨ts, l, r⟩ := h
  obtain ⟨ts', l', r'⟩ := h'
  have e := l.det l'
  subst e
  exact (r.det r').1

/-- C55: two expressions written with the same text are the same in Verilog. -/
theorem C55_text_determines (nm : String → Ref) (p q : PExpr) (hp : Gram nm (.e 0) p) (cp : p.Clear) (hq : Gram nm (.e 0) q) (cq : q.Clear)
    (h : p.text nm = q.text nm) : p.verilog nm = q.verilog nm :=
  C55_reading_unique _ _ _ (C55_structure_partial nm p hp cp) (h ▸ C55_structure_partial nm q hq cq)

/-! ### Counterexamples -/

/-- Names written as they are. -/
def asIs (x : String) : Ref := .plain x.toList

theorem gram_up {nm : String → Ref} {p : PExpr} {k j : Nat} (h : Gram nm (.e k) p) (hj : j ≤ k) (hk : k ≤ 11) : Gram nm (.e j) p := by
  obtain ⟨d, rfl⟩ := Nat.exists_eq_add_of_le hj
  induction d with
  | zero => exact h
  | succ d ih => exact ih (.pass (by omega) h) (by omega) (by omega)

theorem gram_name {x : String} (h : NameText x.toList) (j : Nat) (hj : j ≤ 11) : Gram asIs (.e j) (.name x) :=
  gram_up (.atom (.access (.base rfl h))) hj (Nat.le_refl 11)

theorem name_a : NameText "a".toList := ⟨'a', [], rfl, by decide, by simp⟩
theorem name_b : NameText "b".toList := ⟨'b', [], rfl, by decide, by simp⟩

theorem gram_un {x u : String} (h : NameText x.toList) (hu : u ∈ gramUnary) (j : Nat) (hj : j ≤ 11) : Gram asIs (.e j) (.un u (.name x)) :=
  gram_up (.un hu (.access (.base rfl h))) hj (Nat.le_refl 11)

/-- Operators written one after the other that are read as others: `l & &a` is read as `l && a`, ... -/
def mergedAs : List (String × String × String × Option String) :=
  [("&", "&", "&&", none), ("|", "|", "||", none), ("^", "~", "^~", none), ("^", "~&", "^~", some "&"), ("^", "~|", "^~", some "|"),
   ("^", "~^", "^~", some "^")]

/-- The operand with an operator, if there is one. -/
def optUn (u : Option String) (a : PExpr) : PExpr := match u with
  | some o => .un o a
  | none => a

/-- C55, counterexample: `a & &b` is written `a&&b`, which Verilog reads as the logical and of `a` and `b`; `a | |b` becomes the logical or;
`a ^ ~&b`, `a ^ ~|b` and `a ^ ~^b` become the negation of the exclusive or with `&b`, `|b` and `^b` (all upper bits change). The texts
are the same for all operands. -/
theorem C55_counterexample_merged : ∀ m ∈ mergedAs,
    (∀ nm l a, PExpr.text nm (.bin m.1 l (.un m.2.1 a)) = PExpr.text nm (.bin m.2.2.1 l (optUn m.2.2.2 a))) ∧
    Gram asIs (.e 0) (.bin m.1 (.name "a") (.un m.2.1 (.name "b"))) ∧
    ReadAs (PExpr.text asIs (.bin m.1 (.name "a") (.un m.2.1 (.name "b"))))
      (PExpr.verilog asIs (.bin m.2.2.1 (.name "a") (optUn m.2.2.2 (.name "b")))) ∧
    ¬ ReadAs (PExpr.text asIs (.bin m.1 (.name "a") (.un m.2.1 (.name "b")))) (PExpr.verilog asIs (.bin m.1 (.name "a") (.un m.2.1 (.name "b")))) := by
  intro m hm
  have ht : ∀ nm l a, PExpr.text nm (.bin m.1 l (.un m.2.1 a)) = PExpr.text nm (.bin m.2.2.1 l (optUn m.2.2.2 a)) := by
    intro nm l a
    simp only [mergedAs, List.mem_cons, List.not_mem_nil, or_false] at hm
    rcases hm with rfl | rfl | rfl | rfl | rfl | rfl <;> simp [PExpr.text, optUn]
  have hlv : ∀ m ∈ mergedAs, ∃ k1 k2, gramLevel m.1 = some k1 ∧ gramLevel m.2.2.1 = some k2 ∧ k1 ≤ 10 ∧ k2 ≤ 10 ∧ m.2.1 ∈ gramUnary ∧
      (∀ u, m.2.2.2 = some u → u ∈ gramUnary ∧ (m.2.2.1, u) ∉ merging) ∧ m.1 ≠ m.2.2.1 := by
    intro m hm
    simp only [mergedAs, List.mem_cons, List.not_mem_nil, or_false] at hm
    rcases hm with rfl | rfl | rfl | rfl | rfl | rfl
    · exact ⟨5, 2, by decide +kernel, by decide +kernel, by omega, by omega, by decide, by simp, by decide⟩
    · exact ⟨3, 1, by decide +kernel, by decide +kernel, by omega, by omega, by decide, by simp, by decide⟩
    all_goals exact ⟨4, 4, by decide +kernel, by decide +kernel, by omega, by omega, by decide, by simp; try decide, by decide⟩
  obtain ⟨k1, k2, g1, g2, hk1, hk2, hu, hu', hne⟩ := hlv m hm
  have hG : Gram asIs (.e 0) (.bin m.1 (.name "a") (.un m.2.1 (.name "b"))) :=
    gram_up (.bin g1 (gram_name name_a _ (by omega)) (gram_un name_b hu _ (by omega))) (Nat.zero_le _) (by omega)
  have hopt : Gram asIs (.e (k2 + 1)) (optUn m.2.2.2 (.name "b")) ∧ (optUn m.2.2.2 (.name "b")).Clear ∧
      ∀ u, (optUn m.2.2.2 (.name "b")).lead = some u → (m.2.2.1, u) ∉ merging := by
    cases hx : m.2.2.2 with
    | none => exact ⟨gram_name name_b _ (by omega), trivial, fun u h => by cases h⟩
    | some u =>
      refine ⟨gram_un name_b (hu' u hx).1 _ (by omega), ⟨trivial, fun u h => by cases h⟩, fun u' h => ?_⟩
      cases h
      exact (hu' u hx).2
  have hR : ReadAs (PExpr.text asIs (.bin m.1 (.name "a") (.un m.2.1 (.name "b"))))
      (PExpr.verilog asIs (.bin m.2.2.1 (.name "a") (optUn m.2.2.2 (.name "b")))) := by
    rw [ht]
    exact C55_structure_partial asIs _ (gram_up (.bin g2 (gram_name name_a _ (by omega)) hopt.1) (Nat.zero_le _) (by omega))
      ⟨trivial, hopt.2.1, hopt.2.2⟩
  refine ⟨ht, hG, hR, fun h => ?_⟩
  have := C55_reading_unique _ _ _ h hR
  simp only [PExpr.verilog, VExpr.bin.injEq] at this
  exact hne this.1

/-- Every reading starts with an operand. -/
theorem VRead.operand {m : VMode} {ts r : List VTok} {t : VExpr} (h : VRead m ts t r) :
    ∀ k, m = .e k → ∃ t' r', VRead (.e 12) ts t' r' := by
  induction h with
  | tern _ _ _ i1 _ _ => exact fun _ _ => i1 1 rfl
  | plain _ _ i1 => exact fun _ _ => i1 1 rfl
  | level _ _ _ _ i1 _ => exact fun _ _ => i1 _ rfl
  | un h1 h2 _ => exact fun _ _ => ⟨_, _, .un h1 h2⟩
  | paren h1 _ => exact fun _ _ => ⟨_, _, .paren h1⟩
  | cast h1 _ => exact fun _ _ => ⟨_, _, .cast h1⟩
  | num => exact fun _ _ => ⟨_, _, .num⟩
  | name h1 h2 h3 _ => exact fun _ _ => ⟨_, _, .name h1 h2 h3⟩
  | cat h1 h2 _ => exact fun _ _ => ⟨_, _, .cat h1 h2⟩
  | rep h1 _ => exact fun _ _ => ⟨_, _, .rep h1⟩
  | _ => exact fun _ h => by cases h

/-- C55, counterexample: `a - -b` is written `a--b` and `a && &b` is written `a&&&b`, which Verilog does not accept as expressions. -/
theorem C55_counterexample_rejected : ∀ m ∈ [("-", "-"), ("&&", "&")],
    Gram asIs (.e 0) (.bin m.1 (.name "a") (.un m.2 (.name "b"))) ∧
    ¬ ∃ t, ReadAs (PExpr.text asIs (.bin m.1 (.name "a") (.un m.2 (.name "b")))) t := by
  intro m hm
  have hlv : ∃ k, gramLevel m.1 = some k ∧ k ≤ 10 ∧ m.2 ∈ gramUnary ∧ ∃ s, s ∈ vSymbols ∧ s.toList = m.1.toList ++ m.2.toList ∧ vLevel s = none ∧
      s ≠ "[" ∧ s ≠ "?" ∧ stopC (s.toList.headD 'a') = true := by
    simp only [List.mem_cons, List.not_mem_nil, or_false] at hm
    rcases hm with rfl | rfl
    · exact ⟨9, by decide +kernel, by omega, by decide, "--", by decide +kernel⟩
    · exact ⟨2, by decide +kernel, by omega, by decide, "&&&", by decide +kernel⟩
  obtain ⟨k, g, hk, hu, s, s1, s2, s3, s4, s5, s6⟩ := hlv
  refine ⟨gram_up (.bin g (gram_name name_a _ (by omega)) (gram_un name_b hu _ (by omega))) (Nat.zero_le _) (by omega), ?_⟩
  rintro ⟨t, ts, hl, hr⟩
  have hl' : Lexes ("a".toList ++ (s.toList ++ ("b".toList ++ []))) [.word "a".toList, .sym s, .word "b".toList] := by
    refine lexOk_word name_a _ _ ?_ ?_
    · obtain ⟨_, c, hc, _⟩ := sym_shape s s1
      cases hx : s.toList with
      | nil => rw [hx] at hc; cases hc
      | cons d l => rw [hx] at s6; exact ends_cons s6 _
    · exact lex_safe s1 (c := 'b') (by decide) (lexOk_word name_b _ _ ends_nil .done)
  have ht : PExpr.text asIs (.bin m.1 (.name "a") (.un m.2 (.name "b"))) = "a".toList ++ (s.toList ++ ("b".toList ++ [])) := by
    rw [s2]
    simp [PExpr.text, asIs, Ref.text]
  rw [ht] at hl
  have e := hl.det hl'
  subst e
  have h0 := (base_name name_a).unit.zero (rest := [.sym s, .word "b".toList])
    ⟨⟨fun h => s4 (symAt_cons.mp h), fun j hj => by rw [opAt_cons, s3] at hj; cases hj⟩, fun h => s5 (symAt_cons.mp h)⟩
  have := (hr.det h0).2
  cases this

/-- C55, counterexample: `a ? b : c ? d : e` is the choice between `d` and `e` in the tree of Silice (whose condition is `a ? b : c`), Verilog reads
the choice between `b` and the choice between `d` and `e`. -/
theorem C55_counterexample_chain :
    let p : PExpr := .tern (.tern (.name "a") (.name "b") (.name "c")) (.name "d") (.name "e")
    Gram asIs (.e 0) p ∧
    ReadAs (p.text asIs) (.tern (.name ['a']) (.name ['b']) (.tern (.name ['c']) (.name ['d']) (.name ['e']))) ∧ ¬ ReadAs (p.text asIs) (p.verilog asIs) := by
  intro p
  have hn : ∀ x ∈ ["a", "b", "c", "d", "e"], NameText x.toList := by
    intro x hx
    simp only [List.mem_cons, List.not_mem_nil, or_false] at hx
    rcases hx with rfl | rfl | rfl | rfl | rfl <;> exact ⟨_, [], rfl, by decide, by simp⟩
  have hG : ∀ x ∈ ["a", "b", "c", "d", "e"], ∀ j ≤ 11, Gram asIs (.e j) (.name x) := fun x hx j hj => gram_name (hn x hx) j hj
  have hR : ReadAs (p.text asIs) (.tern (.name ['a']) (.name ['b']) (.tern (.name ['c']) (.name ['d']) (.name ['e']))) := by
    have l1 := lexes_text (Gram.tern (hG "c" (by decide) 0 (by omega)) (hG "d" (by decide) 0 (by omega)) (hG "e" (by decide) 1 (by omega)))
      ⟨rfl, trivial, trivial, trivial⟩ [] [] ends_nil .done
    have l2 := lex_safe (s := ":") (c := 'c') (by decide +kernel) (by decide) l1
    have l3 := lexOk_word (hn "b" (by decide)) _ _ (.str (by decide) _) l2
    have l4 := lex_safe (s := "?") (c := ' ') (by decide +kernel) (by decide) (.space l3)
    have l5 := lexOk_word (hn "a" (by decide)) _ _ (.sym (by decide) _) (.space l4)
    refine ⟨_, by simpa [p, PExpr.text, asIs, Ref.text] using l5, ?_⟩
    have hq : ∀ ts, Quiet 1 (.sym "?" :: ts) := fun ts =>
      ⟨fun h => absurd (symAt_cons.mp h) (by decide), fun j hj => by
        rw [opAt_cons] at hj
        exact absurd hj (by rw [show vLevel "?" = none by decide +kernel]; simp)⟩
    have r1 := (reads_back (Gram.tern (hG "c" (by decide) 0 (by omega)) (hG "d" (by decide) 0 (by omega)) (hG "e" (by decide) 1 (by omega)))
      ⟨rfl, trivial, trivial, trivial⟩).2 [] .nil
    have r2 := (base_name (hn "b" (by decide))).unit.zero (Closed0.cons (s := ":") (by decide)
      (PExpr.toks asIs (.tern (.name "c") (.name "d") (.name "e")) ++ []))
    exact .tern ((chain_le (Nat.le_refl 1) (by omega) (Nat.le_refl 11) (base_name (hn "a" (by decide))).unit.chain).read (hq _)) r2 r1
  refine ⟨.tern (.tern (hG "a" (by decide) 0 (by omega)) (hG "b" (by decide) 0 (by omega)) (hG "c" (by decide) 1 (by omega)))
    (hG "d" (by decide) 0 (by omega)) (hG "e" (by decide) 1 (by omega)), hR, fun h => ?_⟩
  have := C55_reading_unique _ _ _ h hR
  simp [p, PExpr.verilog, asIs] at this

/-- C55, counterexample: `{2{3{a}}}` is accepted by the grammar of Silice and written as it is, which Verilog does not accept (a replication
inside another one needs its own braces). -/
theorem C55_counterexample_replication :
    let p : PExpr := .rep ['2'] (.rep ['3'] (.cat (.one (.name "a"))))
    Gram asIs .atom p ∧ ¬ ∃ t, ReadAs (p.text asIs) t := by
  intro p
  refine ⟨.rep' ⟨by simp, by decide⟩ (.rep ⟨by simp, by decide⟩ (.one (gram_name name_a 0 (by omega)))), ?_⟩
  rintro ⟨t, ts, hl, hr⟩
  have l1 : Lexes ("}".toList ++ ("}".toList ++ ("}".toList ++ []))) [.sym "}", .sym "}", .sym "}"] :=
    lex_close (by decide) (lex_close (by decide) (lex_close (by decide) .done))
  have l2 := lexOk_word name_a _ _ (.str (by decide) _) l1
  have l3 := lex_safe (s := "{") (c := 'a') (by decide +kernel) (by decide) l2
  have l4 := lexOk_num (ds := ['3']) ⟨by simp, by decide⟩ _ _ (.str (by decide) _) l3
  have l5 := lex_par (s := "{") (by decide +kernel) (ds := ['3']) ⟨by simp, by decide⟩ l4
  have l6 := lexOk_num (ds := ['2']) ⟨by simp, by decide⟩ _ _ (.str (by decide) _) l5
  have l7 := lex_par (s := "{") (by decide +kernel) (ds := ['2']) ⟨by simp, by decide⟩ l6
  have l8 : Lexes (p.text asIs) [.sym "{", .num ['2'], .sym "{", .num ['3'], .sym "{", .word ['a'], .sym "}", .sym "}", .sym "}"] := by
    simpa [p, PExpr.text, asIs, Ref.text] using l7
  have e := hl.det l8
  subst e
  obtain ⟨t', r', h12⟩ := hr.operand 0 rfl
  have hnum : ∀ ts, VRead (.e 0) (.num ['3'] :: .sym "{" :: ts) (.num ['3']) (.sym "{" :: ts) := fun ts =>
    (unit_num ['3']).zero (rest := .sym "{" :: ts) ⟨⟨fun h => absurd (symAt_cons.mp h) (by decide), fun j hj => by
      rw [opAt_cons, show vLevel "{" = none by decide +kernel] at hj; cases hj⟩, fun h => absurd (symAt_cons.mp h) (by decide)⟩
  have hlist : ∀ ts l r, VRead .list (.num ['3'] :: .sym "{" :: ts) l r → r = .sym "{" :: ts := by
    intro ts l r h
    cases h with
    | one h1 _ => exact (h1.det (hnum ts)).2
    | more h1 _ =>
      have := (h1.det (hnum ts)).2
      simp at this
  generalize hs : [VTok.sym "{", .num ['2'], .sym "{", .num ['3'], .sym "{", .word ['a'], .sym "}", .sym "}", .sym "}"] = ts0 at h12
  cases h12 with
  | level _ h => omega
  | un h1 _ =>
    simp only [List.cons.injEq, VTok.sym.injEq] at hs
    exact absurd (hs.1 ▸ h1) (by decide)
  | cat h1 _ =>
    simp only [List.cons.injEq, true_and] at hs
    exact h1 _ _ hs.symm
  | rep h1 =>
    simp only [List.cons.injEq, true_and] at hs
    obtain ⟨_, rfl⟩ := hs
    have := hlist _ _ _ h1
    simp at this
  | _ => simp at hs

/-! ### Non-vacuity -/

/-- `x[i + 1] * -y < {2{z, 4b01}} ? __signed(a) >>> 2 : ~F(b).m[1,3]`, with the names `_q_x`... -/
def exText : PExpr :=
  .tern (.bin "<" (.bin "*" (.idx (.name "x") (.bin "+" (.name "i") (.num ['1']))) (.un "-" (.name "y")))
      (.rep ['2'] (.cat (.more (.name "z") (.one (.sized false 4 'b' ['0', '1']))))))
    (.bin ">>>" (.cast true (.name "a")) (.num ['2']))
    (.un "~" (.fieldSel true (.name "b") (.num ['1']) 8 ['3']))

/-- Names of flip-flops, `z` is a macro. -/
def exRef (x : String) : Ref := if x = "z" then .cst false "_c_z".toList else .plain ('_' :: 'q' :: '_' :: x.toList)

example : exText.text exRef = "_q_x[_q_i+1]*-_q_y<{2{$unsigned(`_c_z),4'b01}} ? $signed(_q_a)>>>2:~$signed(_q_b[((1)+(8))+:3])".toList := by
  decide +kernel

example : ReadAs (exText.text exRef) (exText.verilog exRef) := by
  have hw : ∀ x ∈ ["x", "i", "y", "a", "b"], ∃ w, exRef x = .plain w ∧ NameText w := by
    intro x hx
    simp only [List.mem_cons, List.not_mem_nil, or_false] at hx
    rcases hx with rfl | rfl | rfl | rfl | rfl <;>
      exact ⟨_, by rw [exRef, if_neg (by decide)], ⟨'_', _, rfl, by decide, by decide +kernel⟩⟩
  have hb : ∀ x ∈ ["x", "i", "y", "a", "b"], Gram exRef .base (.name x) := fun x hx => by
    obtain ⟨w, h1, h2⟩ := hw x hx
    exact .base h1 h2
  have hn : ∀ x ∈ ["x", "i", "y", "a", "b"], ∀ j ≤ 11, Gram exRef (.e j) (.name x) := fun x hx j hj =>
    gram_up (.atom (.access (hb x hx))) hj (Nat.le_refl 11)
  have hd : ∀ c : Char, isDigitC c = true → ∀ j ≤ 11, Gram exRef (.e j) (.num [c]) := fun c hc j hj =>
    gram_up (.atom (.num ⟨by simp, by simpa using hc⟩)) hj (Nat.le_refl 11)
  refine C55_structure_partial exRef exText (.tern ?_ ?_ ?_) ?_
  · refine gram_up (.bin (k := 7) (by decide +kernel) (gram_up (.bin (k := 10) (by decide +kernel) (gram_up (.atom (.access (.idx (hb "x" (by decide)) ?_))) (by omega) (Nat.le_refl 11))
      (.un (by decide) (.access (hb "y" (by decide))))) (by omega) (by omega)) (gram_up (.atom (.rep ⟨by simp, by decide⟩ (.more ?_ (.one ?_)))) (by omega) (Nat.le_refl 11)))
      (by omega) (by omega)
    · exact gram_up (.bin (k := 9) (by decide +kernel) (hn "i" (by decide) 9 (by omega)) (hd '1' (by decide) 10 (by omega))) (by omega) (by omega)
    · exact gram_up (.atom (.name (x := "z") ⟨'_', _, rfl, by decide, by decide +kernel⟩)) (by omega) (Nat.le_refl 11)
    · exact gram_up (.atom (.sized (by decide) (by simp) (by decide))) (by omega) (Nat.le_refl 11)
  · exact gram_up (.bin (k := 8) (by decide +kernel) (gram_up (.atom (.cast (hn "a" (by decide) 0 (by omega)))) (by omega) (Nat.le_refl 11)) (hd '2' (by decide) 9 (by omega))) (by omega) (by omega)
  · exact gram_up (.un (by decide) (.fieldSel (hb "b" (by decide)) (hd '1' (by decide) 0 (by omega)) ⟨by simp, by decide⟩)) (by omega) (Nat.le_refl 11)
  · simp [exText, PExpr.Clear, PExpr.lead, PExpr.isTern, PExpr.isRep, merging]

end Silice
