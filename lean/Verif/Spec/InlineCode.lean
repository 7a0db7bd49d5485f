import Verif.Model.InlineCode

/-!
# Source meaning of code with conditionals
-/

set_option autoImplicit false

namespace Silice

section
variable {V : Type}

mutual
/-- Values read along the path, and the final values: each assignment takes effect at once, and only the selected branch is
executed. -/
def srcCode (s : String → V) : ICode V → List (List V) × (String → V)
  | .skip => ([], s)
  | .asg i => ([i.reads.map s], Function.update s i.target (i.fn (i.reads.map s)))
  | .seq a b => ((srcCode s a).1 ++ (srcCode (srcCode s a).2 b).1, (srcCode (srcCode s a).2 b).2)
  | .branch reads pick bs =>
    (reads.map s :: (srcBrs s (pick (reads.map s)) bs).1, (srcBrs s (pick (reads.map s)) bs).2)

/-- The branch of a number; the last one for all larger numbers. -/
def srcBrs (s : String → V) (m : Nat) : IBrs V → List (List V) × (String → V)
  | .one c => srcCode s c
  | .cons c bs => if m = 0 then srcCode s c else srcBrs s (m - 1) bs
end

mutual
/-- Largest number of assignments to the variable on a path through the code. -/
def ICode.times (x : String) : ICode V → Nat
  | .skip => 0
  | .asg i => if i.target = x then 1 else 0
  | .seq a b => a.times x + b.times x
  | .branch _ _ bs => bs.times x

/-- Same for branches. -/
def IBrs.times (x : String) : IBrs V → Nat
  | .one c => c.times x
  | .cons c bs => max (c.times x) (bs.times x)
end

mutual
/-- The variable is assigned on every path through the code. -/
def ICode.sets (x : String) : ICode V → Prop
  | .skip => False
  | .asg i => i.target = x
  | .seq a b => a.sets x ∨ b.sets x
  | .branch _ _ bs => bs.sets x

/-- Same for branches. -/
def IBrs.sets (x : String) : IBrs V → Prop
  | .one c => c.sets x
  | .cons c bs => c.sets x ∧ bs.sets x
end

mutual
/-- Some assignment of the code reads the variable where no path has assigned it before. `n`: largest number of assignments to
each variable on the paths before the code. -/
def ICode.readsFirst (x : String) (n : String → Nat) : ICode V → Prop
  | .skip => False
  | .asg i => x ∈ i.reads ∧ n x = 0
  | .seq a b => a.readsFirst x n ∨ b.readsFirst x (fun y => n y + a.times y)
  | .branch _ _ bs => bs.readsFirst x n

/-- Same for branches. -/
def IBrs.readsFirst (x : String) (n : String → Nat) : IBrs V → Prop
  | .one c => c.readsFirst x n
  | .cons c bs => c.readsFirst x n ∨ bs.readsFirst x n
end

mutual
/-- The variables of the set are only read, by assignments and by tests, where every path has assigned them. `done`: the
variables assigned on every path before the code. -/
def ICode.ReadsSet (inl : String → Bool) (done : String → Prop) : ICode V → Prop
  | .skip => True
  | .asg i => ∀ r ∈ i.reads, inl r = true → done r
  | .seq a b => a.ReadsSet inl done ∧ b.ReadsSet inl (fun x => done x ∨ a.sets x)
  | .branch reads _ bs => (∀ r ∈ reads, inl r = true → done r) ∧ bs.ReadsSet inl done

/-- Same for branches. -/
def IBrs.ReadsSet (inl : String → Bool) (done : String → Prop) : IBrs V → Prop
  | .one c => c.ReadsSet inl done
  | .cons c bs => c.ReadsSet inl done ∧ bs.ReadsSet inl done
end

/-- A variable that an assignment reads where no path has assigned it is assigned at most once on any path. -/
def ICode.ReadFirstOnce (c : ICode V) : Prop := ∀ x, c.readsFirst x (fun _ => 0) → c.times x ≤ 1

end

end Silice
