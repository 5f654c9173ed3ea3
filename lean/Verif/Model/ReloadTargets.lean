import Verif.Model.ParallelLoad
/-
Which modules are loaded and rebuilt after an edit.

Models `reload_dependent_targets_by_path` in `src/project.rs`, which the language server runs after
every change of a file, with the two closures it computes.

Simplifications, on top of those of `ProjectLoad` and `ParallelLoad`.
* Sets are lists without repetitions.  The order in which the code walks through a hash set is the
  order of the list, which is arbitrary since the list of targets is.
* The cache of parsed dependencies is left out: it holds what would be computed again.
* A stack is a list whose head is its top.
* The loops are given a bound on the number of rounds, which is proved to be enough.
-/
namespace Acorn.Proj

/-- `dependency_descriptors_for_target` (`src/project.rs:1850-1877`). -/
def dependenciesOf {I : Type} (files : Files I) (m : Mod) : List Mod :=
  match files.lookup m with
  | some (.parsed stmts) => (dependencyNames stmts).filter (· ≠ m)
  | _ => []

/-- `if closure.insert(x) { queue.push(x) }` for every `x` of a list (`src/project.rs:1924-1928`,
`1944-1960`). -/
def pushNew : List Mod → List Mod × List Mod → List Mod × List Mod
  | [], s => s
  | x :: xs, s => pushNew xs (if x ∈ s.1 then s else (x :: s.1, x :: s.2))

/-- The loop `while let Some(descriptor) = queue.pop()` of both closures (`src/project.rs:1920-1930`,
`1942-1961`), with the number of rounds it may still make. -/
def closeQueue (next : Mod → List Mod) : Nat → List Mod × List Mod → List Mod
  | 0, s => s.1
  | n + 1, s =>
    match s.2 with
    | [] => s.1
    | d :: queue => closeQueue next n (pushNew (next d) (s.1, queue))

/-- `reverse_dependencies` (`src/project.rs:1897-1917`): the targets that name module `d`, and all other
targets if `d` is the prelude. -/
def targetsNaming {I : Type} (files : Files I) (targets : List Mod) (d : Mod) : List Mod :=
  targets.flatMap fun t =>
    (if t ≠ preludeMod ∧ d = preludeMod then [t] else []) ++
      ((dependenciesOf files t).filter (· = d)).map fun _ => t

/-- `dependent_target_closure` (`src/project.rs:1892-1931`). -/
def dependentTargets {I : Type} (files : Files I) (targets roots : List Mod) : List Mod :=
  closeQueue (targetsNaming files targets) (roots.length + targets.length) (roots, roots)

/-- The modules that one round of `target_dependency_closure` looks at (`src/project.rs:1943-1957`). -/
def knownDependencies {I : Type} (files : Files I) (known : Mod → Bool) (d : Mod) : List Mod :=
  (if d ≠ preludeMod ∧ known preludeMod then [preludeMod] else []) ++
    (dependenciesOf files d).filter known

/-- `target_dependency_closure` (`src/project.rs:1933-1963`); `known` tells whether `module_map` has
the module. -/
def dependencyClosure {I : Type} (files : Files I) (known : Mod → Bool) (roots : List Mod) :
    List Mod :=
  closeQueue (knownDependencies files known)
    (roots.length + (preludeMod :: files.flatMap fun f => dependenciesOf files f.1).length)
    (roots, roots)

/-- `reload_dependent_targets_by_path` (`src/project.rs:1978-2004`), up to the start of the loader: the
project with its targets, the targets to be built, and the loader.  `sort` is
`sorted_by_cached_work`.  Starting the loader registers the modules on disk once more, which changes
nothing. -/
def Project.reloadDependent {E I : Type} (prefer : Mod → Mod → Bool) (sort : List Mod → List Mod)
    (P : Project E I) (m : Mod) (jobs : Nat) : Project E I × List Mod × Started E I :=
  let Q := P.addTarget m
  let targets := dependentTargets Q.files Q.targets [m]
  let load := dependencyClosure Q.files
    (fun d => ((Q.table.register (Q.disk.map (·.1))).states d).isSome) targets
  (Q, targets, Q.startParallel prefer load (sort load) (max (jobs / 2) 1))

end Acorn.Proj
