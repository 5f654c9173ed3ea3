/-
C64: the warnings about unused imports.
-/
import Verif.Lemmas.Lint
namespace Acorn
open Lint

/-- Results of the linter can be compared. -/
local instance lintResultEq : DecidableEq (Except Problem (List Warning))
  | .ok a, .ok b => if h : a = b then isTrue (by rw [h]) else isFalse fun e => h (by cases e; rfl)
  | .error a, .error b => if h : a = b then isTrue (by rw [h]) else isFalse fun e => h (by cases e; rfl)
  | .ok _, .error _ => isFalse fun e => by cases e
  | .error _, .ok _ => isFalse fun e => by cases e

/-- The key of an entity, of which the other theorems speak, is what the entity is known as. -/
theorem C64_key (e : Entity) (k : Key) : e.key = k ↔ KnownAs e k := by
  constructor
  · rintro rfl
    cases e with
    | value n s => cases n <;> constructor
    | type d s => cases d <;> constructor
    | module id => constructor
    | typeclass c => constructor
    | unresolvedValue n => constructor
    | unresolvedType d s => cases d <;> constructor
  · intro h; cases h <;> rfl

/-- An unresolved constant is used where the constant is. -/
example : (Entity.unresolvedValue "nat.add").key = (Entity.value (some "nat.add") "add").key := rfl

/-- The warnings about a module are exactly those about its imports, at any depth, that count as unused: nothing in the
module, its exports or the cached certificates uses the entity or anything that is only known by its module. -/
theorem C64_warns {m : Lint.Module} {ws : List Warning} (e : lintModule m = .ok ws) (w : Warning) :
    w ∈ ws ↔ ∃ i, Imports m.env i ∧ ¬ Counts m i ∧
      w = { path := m.path, line := i.line, column := i.column, importName := i.importName, moduleName := i.moduleName } := by
  rw [lintModule_eq] at e
  split at e
  · cases e
  · rename_i u hu
    cases e
    simp only [List.mem_map, List.mem_filter, Bool.not_eq_true', ← mem_imports]
    constructor
    · rintro ⟨i, ⟨h1, h2⟩, rfl⟩
      refine ⟨i, h1, fun hc => ?_, rfl⟩
      rw [(certificate_ok hu h1).2 hc] at h2; cases h2
    · rintro ⟨i, h1, h2, rfl⟩
      refine ⟨i, ⟨h1, ?_⟩, rfl⟩
      rw [← Bool.not_eq_true, certificate_ok hu h1]
      exact h2

/-- No import is reported twice, and the reports are in the order in which the imports are written. -/
theorem C64_once {m : Lint.Module} {ws : List Warning} (e : lintModule m = .ok ws) {is : List Import}
    (hw : Written m.env is) :
    ws.Sublist (is.map fun i => ⟨m.path, i.line, i.column, i.importName, i.moduleName⟩) := by
  cases written_unique hw (written_imports m.env)
  rw [lintModule_eq] at e
  split at e
  · cases e
  · cases e
    exact List.filter_sublist.map _

/-- One cached certificate that is good for nothing silences all warnings about its module. -/
theorem C64_blind {m : Lint.Module} {ws : List Warning} (e : lintModule m = .ok ws) {g : Lint.Goal} {c : Lint.Cert}
    (h : CertOf m g c) (hu : Unreadable g c) : ws = [] := by
  refine List.eq_nil_iff_forall_not_mem.2 fun w hw => ?_
  obtain ⟨i, _, hn, _⟩ := (C64_warns e w).1 hw
  exact hn (.inl ⟨g, c, h, hu⟩)

/-- The linter asks for certificates only if it needs them: it says that there are none exactly if there are goals to be
certified and no certificates at all. -/
theorem C64_no_certificates (m : Lint.Module) :
    lintModule m = .error .noCertificates ↔ NeedsCerts m ∧ m.certs = none := by
  rw [lintModule_error]
  unfold certificateUsage NeedsCerts
  split
  · rename_i h
    refine ⟨fun e => (by cases e), ?_⟩
    rintro ⟨⟨h1, h2⟩, _⟩
    simp [h1, h2] at h
  · rename_i h
    simp only [Bool.or_eq_true, not_or, List.isEmpty_iff, Bool.not_eq_true] at h
    split
    · rename_i hc; simp [h, hc]
    · rename_i cs hc
      rw [goals_error]
      simp [hc]

/-- It names a goal exactly if this goal is the first without a certificate, and no certificate before it is good for
nothing. -/
theorem C64_no_certificate (m : Lint.Module) (n : String) :
    lintModule m = .error (.noCertificate n) ↔ NeedsCerts m ∧ FirstWithout m n := by
  rw [lintModule_error]
  unfold certificateUsage NeedsCerts FirstWithout
  split
  · rename_i h
    refine ⟨fun e => (by cases e), ?_⟩
    rintro ⟨⟨h1, h2⟩, _⟩
    simp [h1, h2] at h
  · rename_i h
    simp only [Bool.or_eq_true, not_or, List.isEmpty_iff, Bool.not_eq_true] at h
    split
    · rename_i hc; simp [hc]
    · rename_i cs hc
      rw [goals_error]
      constructor
      · rintro ⟨pre, g, post, h1, h2, h3, h4⟩
        cases h2
        exact ⟨h, cs, pre, g, post, hc, h1, rfl, h3, h4⟩
      · rintro ⟨_, cs', pre, g, post, h0, h1, rfl, h3, h4⟩
        rw [hc] at h0; cases h0
        exact ⟨pre, g, post, h1, rfl, h3, h4⟩

/-- The warnings about the targets are the warnings about all the modules, each as often as it was given, sorted by
path, line, column, name and module. -/
theorem C64_targets {ms : List Lint.Module} {ws : List Warning} (e : lintTargets ms = .ok ws) :
    ws.Pairwise Before ∧ ∃ wss : List (List Warning), ms.map lintModule = wss.map .ok ∧ ws.Perm wss.flatten := by
  unfold lintTargets at e
  split at e
  · cases e
  · rename_i l hl
    cases e
    obtain ⟨wss, h, rfl⟩ := lintAll_ok hl
    refine ⟨?_, wss, h, List.mergeSort_perm ..⟩
    refine (List.pairwise_mergeSort (le := Warning.le) ?_ ?_ wss.flatten).imp fun h => le_iff.1 h
    · intro a b c h k; exact le_iff.2 (before_trans (le_iff.1 h) (le_iff.1 k))
    · intro a b
      rw [Bool.or_eq_true, le_iff, le_iff]
      exact before_total a b

/-- There are warnings about the targets or the problem of one of the modules: nothing is swallowed. -/
theorem C64_targets_error {ms : List Lint.Module} :
    (∃ p, lintTargets ms = .error p) ↔ ∃ m ∈ ms, ∃ p, lintModule m = .error p := by
  constructor
  · rintro ⟨p, e⟩
    unfold lintTargets at e
    split at e
    · rename_i p' h
      obtain ⟨m, h1, h2⟩ := lintAll_error h
      exact ⟨m, h1, p', h2⟩
    · cases e
  · rintro ⟨m, hm, p, h⟩
    cases e : lintTargets ms with
    | error q => exact ⟨q, rfl⟩
    | ok ws =>
      obtain ⟨_, wss, k, _⟩ := C64_targets e
      have : lintModule m ∈ wss.map Except.ok := k ▸ List.mem_map_of_mem hm
      obtain ⟨w, _, hw⟩ := List.mem_map.1 this
      rw [h] at hw; cases hw

namespace LintDemo

/-- `from nat import add`. -/
def add : Import := ⟨3, 0, 3, "add", "nat", 1, .value (some "nat.add") "add"⟩

/-- `from nat import mul`, in a block. -/
def mul : Import := ⟨9, 1, 3, "mul", "nat", 1, .value (some "nat.mul") "mul"⟩

/-- A table that knows the first constant of the module `nat`. -/
def names : Names := fun m i => if m = 1 ∧ i = 0 then some "nat.mul" else none

/-- A certificate with one line. -/
def cert (text : String) (as : List Lint.Atom) : Lint.Cert := ⟨"g", [(text, some (.claim ⟨[], [as]⟩ (some ⟨[], [as]⟩)))]⟩

/-- A module with both imports, a goal, and a certificate with one line. -/
def module (text : String) (as : List Lint.Atom) : Lint.Module :=
  { path := "main.ac"
    env := .mk [add] [(3, add.entity)] (.cons (.mk [mul] [(9, mul.entity)] .nil) .nil)
    exported := fun _ _ => false
    facts := []
    goals := [⟨"g", names, [⟨[], [[.other]]⟩], id⟩]
    surface := false
    certs := some [cert text as] }

/-- The warning about `add`. -/
def wAdd : Warning := ⟨"main.ac", 0, 3, "add", "nat"⟩

/-- The warning about `mul`. -/
def wMul : Warning := ⟨"main.ac", 1, 3, "mul", "nat"⟩

/-- The certificate uses `mul`: only the other import is reported. -/
example : lintModule (module "p(x)" [.constant 1 0]) = .ok [wAdd] := by decide +kernel

/-- Nothing is used: both are. -/
example : lintModule (module "p(x)" [.other]) = .ok [wAdd, wMul] := by decide +kernel

/-- The name in a line of the certificate is enough. -/
example : lintModule (module "add(x)" [.other]) = .ok [] := by decide +kernel

/-- So `C64_warns` says something about both. -/
example : Counts (module "p(x)" [.constant 1 0]) mul ∧ ¬ Counts (module "p(x)" [.constant 1 0]) add := by
  have e : lintModule (module "p(x)" [.constant 1 0]) = .ok [wAdd] := by decide +kernel
  constructor
  · refine .inr (.inl (.step (g := ⟨"g", names, [⟨[], [[.other]]⟩], id⟩) (c := cert "p(x)" [.constant 1 0]) ?_
      (List.mem_singleton.2 rfl) (.inl ?_)))
    · exact ⟨⟨by simp [module], rfl⟩, List.mem_singleton.2 rfl, ⟨_, rfl, List.mem_singleton.2 rfl⟩, rfl⟩
    · exact ⟨[.constant 1 0], .inr (List.mem_singleton.2 rfl), _, List.mem_singleton.2 rfl, .named rfl⟩
  · obtain ⟨i, hi, hn, hw⟩ := (C64_warns e wAdd).1 (by simp)
    have := mem_imports.2 hi
    simp only [module, Env.allImports, Envs.allImports, List.cons_append, List.nil_append, List.append_nil,
      List.mem_cons, List.not_mem_nil, or_false] at this
    rcases this with rfl | rfl
    · exact hn
    · simp [wAdd, mul] at hw

/-- The imports of the example are written once. -/
example : Written (module "p(x)" []).env [add, mul] := .mk (.cons (.mk .nil) .nil)

/-- A certificate without lines silences both warnings. -/
example : lintModule { module "p(x)" [.other] with certs := some [⟨"g", []⟩] } = .ok [] ∧
    Unreadable ⟨"g", names, [], id⟩ ⟨"g", []⟩ := ⟨by decide +kernel, .inl rfl⟩

/-- So does a line that cannot be parsed, after one that can. -/
example : lintModule { module "" [] with certs := some [⟨"g", [("p(x)", some (.claim ⟨[], []⟩ (some ⟨[], []⟩))),
    ("q(", none)]⟩] } = .ok [] := by decide +kernel

/-- No certificates at all, and none for the goal. -/
example : lintModule { module "" [] with certs := none } = .error .noCertificates ∧
    lintModule { module "" [] with certs := some [] } = .error (.noCertificate "g") := by
  constructor <;> decide +kernel

/-- A module that needs none. -/
example : lintModule { module "" [] with certs := none, surface := true } = .ok [wAdd, wMul] := by decide +kernel

/-- Two modules, not in order. -/
example : ∃ ws, lintTargets [{ module "p(x)" [.other] with path := "z.ac" }, module "p(x)" [.constant 1 0]] = .ok ws ∧
    ws.length = 3 ∧ ws.head? = some wAdd := by
  have h : lintAll [{ module "p(x)" [.other] with path := "z.ac" }, module "p(x)" [.constant 1 0]] =
    .ok [{ wAdd with path := "z.ac" }, { wMul with path := "z.ac" }, wAdd] := by decide +kernel
  unfold lintTargets
  rw [h]
  refine ⟨_, rfl, by simp, ?_⟩
  simp [List.mergeSort, List.MergeSort.Internal.splitInTwo, List.merge, Warning.le, wAdd, wMul]

end LintDemo

/-- The code does not say what it uses a name for: an import that nothing uses is not reported if its name happens to be
part of another name in a line of a certificate.  Here the two modules differ in nothing but the name of a function that
has nothing to do with the import. -/
theorem C64_disagreement_substring : ∃ (m : String → Lint.Module) (i : Import), i.importName = "add" ∧
    (∀ text, Imports (m text).env i) ∧
    (∃ ws, lintModule (m "p(x)") = .ok ws ∧ (warn "main.ac" i) ∈ ws) ∧ lintModule (m "padded(x)") = .ok [] :=
  ⟨fun t => LintDemo.module t [.other], LintDemo.add, rfl, fun _ => .here (by simp),
    ⟨_, (by decide +kernel : lintModule (LintDemo.module "p(x)" [.other]) = .ok [LintDemo.wAdd, LintDemo.wMul]),
      by simp [warn, LintDemo.add, LintDemo.wAdd]⟩, by decide +kernel⟩

/-- An import that nothing uses is not reported if anything of its module is used that has no name, or a type: the
module counts as used as a whole. -/
theorem C64_disagreement_module : ∃ (m : Lint.Module) (i : Import), Imports m.env i ∧ ¬ Uses m (.key i.entity.key) ∧
    lintModule m = .ok [] := by
  refine ⟨{ LintDemo.module "" [] with goals := [], facts := [(LintDemo.names, [⟨[[.type 1]], []⟩])] }, LintDemo.add,
    .here (by simp), ?_, by decide +kernel⟩
  intro h
  rw [uses_iff, ← has_base] at h
  rcases h with h | ⟨g, c, ⟨⟨h, _⟩, _⟩, _⟩
  · revert h
    simp only [Usage.Has]
    decide +kernel
  · exact h rfl

end Acorn
