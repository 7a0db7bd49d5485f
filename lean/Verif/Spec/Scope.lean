import Verif.Model.Scope

/-!
Scopes in the source: an identifier denotes the last declaration of it that comes before, in the same block or in one around it. Parameters of a subroutine are declared in it. Later
stages of a pipeline see what earlier ones declare.
-/

set_option autoImplicit false

namespace Silice

/-- Declarations that can be seen, the last first. -/
abbrev ScEnv := List (String × Nat)

mutual
/-- What the uses of a statement denote, in order, and what is declared after it. -/
def scStmt (env : ScEnv) : ScStmt → List (Nat × Option Nat) × ScEnv
  | .decl d x => ([], (x, d) :: env)
  | .use u x => ([(u, assoc env x)], env)
  | .step _ => ([], env)
  | .cut => ([], env)
  | .block b => ((scStmts env b).1, env)
  | .ifElse t e => ((scStmts env t).1 ++ (scStmts env e).1, env)
  | .ifThen t => ((scStmts env t).1, env)
  | .switch cs => (scCases env cs, env)
  | .loop b => ((scStmts env b).1, env)
  | .pipe stages => (scStages env stages, env)
  | .sub _ ps b => ((scStmts (ps.map (fun p => (p.2.2, p.1)) ++ env) b).1, env)

/-- Sequences of statements. -/
def scStmts (env : ScEnv) : ScStmts → List (Nat × Option Nat) × ScEnv
  | .nil => ([], env)
  | .cons s r => ((scStmt env s).1 ++ (scStmts (scStmt env s).2 r).1, (scStmts (scStmt env s).2 r).2)

/-- Cases do not see each other. -/
def scCases (env : ScEnv) : ScCases → List (Nat × Option Nat)
  | .nil => []
  | .cons b r => (scStmts env b).1 ++ scCases env r

/-- Stages see earlier stages. -/
def scStages (env : ScEnv) : ScCases → List (Nat × Option Nat)
  | .nil => []
  | .cons b r => (scStmts env b).1 ++ scStages (scStmts env b).2 r
end

/-- Uses of a unit. -/
def scUnit (decls : List (Nat × String)) (before after body : ScStmts) : List (Nat × Option Nat) :=
  let env : ScEnv := (decls.map fun d => (d.2, d.1)).reverse
  (scStmts env before).1 ++ (scStmts env after).1 ++ (scStmts env body).1

/-- Identifiers declared before the next statement that starts a new block. -/
def runDecls : ScStmts → List String
  | .cons (.decl _ x) r => x :: runDecls r
  | .cons (.use _ _) r => runDecls r
  | .cons (.sub _ _ _) r => runDecls r
  | _ => []

mutual
/-- Identifiers declared. -/
def ScStmt.declares : ScStmt → List String
  | .decl _ x => [x]
  | .use _ _ | .step _ | .cut => []
  | .block b | .ifThen b | .loop b => b.declares
  | .ifElse t e => t.declares ++ e.declares
  | .switch cs | .pipe cs => cs.declares
  | .sub _ _ b => b.declares
def ScStmts.declares : ScStmts → List String
  | .nil => []
  | .cons s r => s.declares ++ r.declares
def ScCases.declares : ScCases → List String
  | .nil => []
  | .cons b r => b.declares ++ r.declares
end

/-- No switch among the statements themselves (there may be some in blocks), and no subroutine, which would be refused there. -/
def ScStmts.noSwitch : ScStmts → Prop
  | .nil => True
  | .cons (.switch _) _ => False
  | .cons (.sub _ _ _) _ => False
  | .cons _ r => r.noSwitch

mutual
/-- Sources without the habits for which the claim is false: identifiers are declared before they are used in a sequence of instructions, variables of a subroutine differ from its
parameters, stages of pipelines have their switches in blocks. -/
def ScStmt.Orderly : ScStmt → Prop
  | .decl _ _ | .use _ _ | .step _ | .cut => True
  | .block b | .ifThen b | .loop b => b.Orderly
  | .ifElse t e => t.Orderly ∧ e.Orderly
  | .switch cs => cs.Orderly
  | .pipe cs => cs.Orderly ∧ cs.NoSwitch
  | .sub _ ps b => b.Orderly ∧ (∀ p ∈ ps, p.2.2 ∉ b.declares) ∧ (ps.map fun p => p.2.2).Nodup
def ScStmts.Orderly : ScStmts → Prop
  | .nil => True
  | .cons (.use _ x) r => x ∉ runDecls r ∧ r.Orderly
  | .cons s r => s.Orderly ∧ r.Orderly
def ScCases.Orderly : ScCases → Prop
  | .nil => True
  | .cons b r => b.Orderly ∧ r.Orderly
def ScCases.NoSwitch : ScCases → Prop
  | .nil => True
  | .cons b r => b.noSwitch ∧ r.NoSwitch
end

/-- The names the compiler makes for variables are not declared in the source. -/
def NamesApart (st : ScState) : Prop := ∀ v ∈ st.vars, v.name ≠ v.base → ∀ w ∈ st.vars, w.base ≠ v.name

/-- The `k + 1`-fold translation of the identifier of a use is the name of the variable of the declaration it denotes; what denotes nothing is left as it is. -/
def Resolves (st : ScState) (k : Nat) (use : Nat × Nat × String) (den : Nat × Option Nat) : Prop :=
  use.2.1 = den.1 ∧ ∃ b, st.blocks[use.1]? = some b ∧
    (∀ d, den.2 = some d → ∃ v ∈ st.vars, v.id = d ∧ v.base = use.2.2 ∧ translateTimes b k use.2.2 = v.name) ∧
    (den.2 = none → translateTimes b k use.2.2 = use.2.2)

/-- What denotes a declaration passes the check of scopes, what denotes nothing and is not the name of a variable is refused. -/
def Checked (st : ScState) (k : Nat) (use : Nat × Nat × String) (den : Nat × Option Nat) : Prop :=
  (∀ d chk, den.2 = some d → useOk st chk k use = true) ∧ (∀ chk, den.2 = none → use.2.2 ∉ st.vars.map ScVar.name → useOk st chk k use = false)

mutual
/-- Labels. -/
def ScStmt.labels : ScStmt → List String
  | .step (some l) => [l]
  | .decl _ _ | .use _ _ | .step none | .cut => []
  | .block b | .ifThen b | .loop b | .sub _ _ b => b.labels
  | .ifElse t e => t.labels ++ e.labels
  | .switch cs | .pipe cs => cs.labels
def ScStmts.labels : ScStmts → List String
  | .nil => []
  | .cons s r => s.labels ++ r.labels
def ScCases.labels : ScCases → List String
  | .nil => []
  | .cons b r => b.labels ++ r.labels
end

mutual
/-- Parameters, with their subroutines. -/
def ScStmt.params : ScStmt → List (String × Nat × Bool × String)
  | .decl _ _ | .use _ _ | .step _ | .cut => []
  | .block b | .ifThen b | .loop b => b.params
  | .ifElse t e => t.params ++ e.params
  | .switch cs | .pipe cs => cs.params
  | .sub f ps b => ps.map (fun p => (f, p)) ++ b.params
def ScStmts.params : ScStmts → List (String × Nat × Bool × String)
  | .nil => []
  | .cons s r => s.params ++ r.params
def ScCases.params : ScCases → List (String × Nat × Bool × String)
  | .nil => []
  | .cons b r => b.params ++ r.params
end

/-- Identifiers that a source declares do not start with an underscore (the grammar sees to that), are not glued from a label and another one of them, and are not of the form
`i_f_x` or `o_f_x` for a parameter `x` of a subroutine `f`. -/
def PlainNames (declared labels : List String) (params : List (String × Nat × Bool × String)) : Prop :=
  ∀ x, x ∈ declared ∨ x ∈ params.map (fun q => q.2.2.2) → x.toList.head? ≠ some '_' ∧
    (∀ l ∈ labels, ∀ y, y ∈ declared ∨ y ∈ params.map (fun q => q.2.2.2) → x ≠ l ++ "_" ++ y) ∧ ∀ q ∈ params, x ≠ paramVar q.1 q.2

/-- The same for an algorithm. -/
def ScStmts.Plain (body : ScStmts) : Prop := PlainNames body.declares body.labels body.params

end Silice
