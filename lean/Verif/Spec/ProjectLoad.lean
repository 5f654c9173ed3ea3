import Verif.Model.ProjectLoad
/-
What loading a project should produce, said without any loader: which modules a module needs, when
its imports go round in a circle, and what every module of the project elaborates to.
-/
namespace Acorn.Proj

variable {E I σ : Type}

/-- Module `d` is needed by module `m`: some statement of the file `m` names it, or it is the
prelude, which every other module uses. -/
def Needs (files : Files I) (d m : Mod) : Prop :=
  ∃ stmts, files.lookup m = some (.parsed stmts) ∧
    ((∃ s ∈ stmts, d ∈ s.imports ∨ d ∈ s.libs) ∨ (d = preludeMod ∧ m ≠ preludeMod))

/-- Module `m` needs module `d`, directly or through other modules. -/
inductive Below (files : Files I) (d : Mod) : Mod → Prop where
  | direct {m} : Needs files d m → Below files d m
  | through {k m} : Below files d k → Needs files k m → Below files d m

/-- The imports of `m` go round in a circle: `m`, or a module it needs, needs itself. -/
def Circular (files : Files I) (m : Mod) : Prop :=
  Below files m m ∨ ∃ x, Below files x m ∧ Below files x x

/-- Elaborating the statements of `m` in order when `V` gives the exports of the other modules: every
module a statement names must have an export. -/
def buildStmts (El : Elaborator E I σ) (V : Mod → Option E) (m : Mod) :
    σ → List (Stmt I) → Option σ
  | s, [] => some s
  | s, st :: rest =>
    (st.imports.mapM V).bind fun es =>
      (st.libs.mapM V).bind fun ls =>
        (El.step m V s es ls st.act).bind fun s' => buildStmts El V m s' rest

/-- The modules that a file mentions with `lib(...)`, in the order in which the file first names
them. -/
def libsOf (stmts : List (Stmt I)) : List Mod :=
  ((stmts.flatMap fun s => s.imports ++ s.libs).eraseDups).filter
    fun d => d ∈ stmts.flatMap (·.libs)

/-- What module `m` elaborates to when `V` gives the exports of the other modules; nothing when the
file is missing, cannot be parsed or has an error. -/
def buildFile (El : Elaborator E I σ) (files : Files I) (V : Mod → Option E) (m : Mod) :
    Option E :=
  match files.lookup m with
  | some (.parsed stmts) =>
    (buildStmts El V m
      ((libsOf stmts).foldl El.addLib (El.start m (if m = preludeMod then none else V preludeMod)))
      stmts).map (El.finish m V)
  | _ => none

/-- `V` is what the project means: every module elaborates against what `V` says of the others, and
a module whose imports go round in a circle has no export. -/
structure Result (El : Elaborator E I σ) (files : Files I) (V : Mod → Option E) : Prop where
  build : ∀ m, ¬ Circular files m → V m = buildFile El files V m
  circular : ∀ m, Circular files m → V m = none

/-- The elaborator asks the project only about modules that the module at hand needs, directly or
through others: those are the modules whose names can occur in what it imports. -/
def Local (El : Elaborator E I σ) (files : Files I) : Prop :=
  ∀ m V W, (∀ x, Below files x m → V x = W x) → El.step m V = El.step m W ∧
    El.finish m V = El.finish m W

/-- A module has been loaded, well or badly. -/
def Finished (p : Table E) (m : Mod) : Prop :=
  (∃ e, p.states m = some (.ok e)) ∨ ∃ c, p.states m = some (.error c)

/-- The contents that a history of requests leaves for a module, when `held` is what is open and on
disk at the start: an update replaces the open text unless it repeats the version already held, and
closing a file brings back the one on disk. -/
def openAfter (m : Mod) : Option (File I × Int) → List (Request I) → Option (File I × Int)
  | held, [] => held
  | held, r :: rest =>
    openAfter m
      (match r with
        | .update n f v | .updateIde n f v =>
          if n = m then (if held.map (·.2) = some v then held else some (f, v)) else held
        | .close n => if n = m then none else held
        | _ => held) rest

end Acorn.Proj
