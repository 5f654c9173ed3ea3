/-
When an import counts as used.
-/
import Verif.Model.Lint
namespace Acorn
namespace Lint

/-- What can be used: an entity, or something of a module. -/
inductive Use
  | key (k : Key)
  | module (id : Nat)

/-- What an entity is known as: a constant, resolved or not, by its name; a datatype and a typeclass as such; a module by
its number; any other value or type by how it is shown. -/
inductive KnownAs : Entity → Key → Prop
  | value (n s : String) : KnownAs (.value (some n) s) (.constant n)
  | otherValue (s : String) : KnownAs (.value none s) (.other ("value:" ++ s))
  | type (d : Thing) (s : String) : KnownAs (.type (some d) s) (.datatype d)
  | otherType (s : String) : KnownAs (.type none s) (.other ("type:" ++ s))
  | module (id : Nat) : KnownAs (.module id) (.module id)
  | typeclass (c : Thing) : KnownAs (.typeclass c) (.typeclass c)
  | unresolvedValue (n : String) : KnownAs (.unresolvedValue n) (.constant n)
  | unresolvedType (d : Thing) (s : String) : KnownAs (.unresolvedType (some d) s) (.datatype d)
  | otherUnresolved (s : String) : KnownAs (.unresolvedType none s) (.other ("type:" ++ s))

/-- What an atom uses: a constant if it has a name, otherwise its module; types and typeclasses their modules. -/
inductive AtomUses (names : Names) : Atom → Use → Prop
  | named {m i : Nat} {n : String} : names m i = some n → AtomUses names (.constant m i) (.key (.constant n))
  | unnamed {m i : Nat} : names m i = none → AtomUses names (.constant m i) (.module m)
  | type (m : Nat) : AtomUses names (.type m) (.module m)
  | typeclass (m : Nat) : AtomUses names (.typeclass m) (.module m)

/-- A clause uses what the atoms of its variables' types and of its literals use. -/
def ClauseUses (names : Names) (c : Clause) (x : Use) : Prop :=
  ∃ t, (t ∈ c.varTypes ∨ t ∈ c.literals) ∧ ∃ a ∈ t, AtomUses names a x

/-- A datatype is used with its module. -/
def DataUses (d : Thing) (x : Use) : Prop := x = .key (.datatype d) ∨ x = .module d.moduleId

/-- A typeclass is used with its module. -/
def ClassUses (c : Thing) (x : Use) : Prop := x = .key (.typeclass c) ∨ x = .module c.moduleId

/-- A type parameter uses its typeclass. -/
def ParamUses (p : Option Thing) (x : Use) : Prop := ∃ c, p = some c ∧ ClassUses c x

/-- A value uses its constants. -/
def ConstUses (ns : List String) (x : Use) : Prop := ∃ n ∈ ns, x = .key (.constant n)

mutual
  /-- What a type uses. -/
  def AType.Uses : AType → Use → Prop
    | .data d ts, x => DataUses d x ∨ ts.Uses x
    | .family d as, x => DataUses d x ∨ as.Uses x
    | .variable c, x => ParamUses c x
    | .arbitrary c, x => ParamUses c x
    | .function ts r, x => ts.Uses x ∨ r.Uses x
    | .constraint c, x => ClassUses c x
    | .bool, _ => False
    | .type0, _ => False
  /-- What types use. -/
  def ATypes.Uses : ATypes → Use → Prop
    | .nil, _ => False
    | .cons t ts, x => t.Uses x ∨ ts.Uses x
  /-- What arguments use. -/
  def AArgs.Uses : AArgs → Use → Prop
    | .nil, _ => False
    | .type t as, x => t.Uses x ∨ as.Uses x
    | .value ns ts as, x => ConstUses ns x ∨ ts.Uses x ∨ as.Uses x
end

/-- What a line of a certificate uses. -/
def StepUses (names : Names) : CertStep → Use → Prop
  | .claim g s, x => ClauseUses names g x ∨ ∃ c, s = some c ∧ ClauseUses names c x
  | .satisfy ps as r ns ts g s more ws, x =>
    (∃ p ∈ ps, ParamUses p x) ∨ as.Uses x ∨ r.Uses x ∨ ConstUses ns x ∨ ts.Uses x ∨
      ∃ c, (c = g ∨ s = some c ∨ more = some c ∨ c ∈ ws) ∧ ClauseUses names c x

/-- A line can be read: it can be parsed and specialized. -/
def Readable : String × Option CertStep → Prop
  | (_, some (.claim _ s)) => s ≠ none
  | (_, some (.satisfy _ _ _ _ _ _ s _ _)) => s ≠ none
  | (_, none) => False

/-- An import is used together with its module. -/
def ImportUses (i : Import) (x : Use) : Prop := x = .key i.entity.key ∨ x = .module i.moduleId

/-- A text is part of another. -/
def PartOf (part text : String) : Prop := ∃ a b, text.toList = a ++ part.toList ++ b

/-- A line uses the imports whose name or module it names in its text. -/
def TextUses (imported : Import → Prop) (claim : String) (x : Use) : Prop :=
  ∃ i, imported i ∧ (PartOf i.importName claim ∨ PartOf ("lib(" ++ i.moduleName ++ ")") claim) ∧ ImportUses i x

mutual
  /-- An import is somewhere in an environment. -/
  inductive Imports : Env → Import → Prop
    | here {is ts bs i} : i ∈ is → Imports (.mk is ts bs) i
    | block {is ts bs i} : BlockImports bs i → Imports (.mk is ts bs) i
  /-- An import is somewhere in the blocks. -/
  inductive BlockImports : Envs → Import → Prop
    | head {b bs i} : Imports b i → BlockImports (.cons b bs) i
    | tail {b bs i} : BlockImports bs i → BlockImports (.cons b bs) i
end

mutual
  /-- The imports of an environment as they are written: its own, then those of its blocks, each once. -/
  inductive Written : Env → List Import → Prop
    | mk {is ts bs js} : BlocksWritten bs js → Written (.mk is ts bs) (is ++ js)
  /-- The imports of the blocks as they are written. -/
  inductive BlocksWritten : Envs → List Import → Prop
    | nil : BlocksWritten .nil []
    | cons {b bs is js} : Written b is → BlocksWritten bs js → BlocksWritten (.cons b bs) (is ++ js)
end

mutual
  /-- A token is somewhere in an environment. -/
  inductive Tokens : Env → Nat → Entity → Prop
    | here {is ts bs k e} : (k, e) ∈ ts → Tokens (.mk is ts bs) k e
    | block {is ts bs k e} : BlockTokens bs k e → Tokens (.mk is ts bs) k e
  /-- A token is somewhere in the blocks. -/
  inductive BlockTokens : Envs → Nat → Entity → Prop
    | head {b bs k e} : Tokens b k e → BlockTokens (.cons b bs) k e
    | tail {b bs k e} : BlockTokens bs k e → BlockTokens (.cons b bs) k e
end

/-- The linter looks at the certificates of a module. -/
def NeedsCerts (m : Module) : Prop := m.goals ≠ [] ∧ m.surface = false

/-- A cached certificate is for a goal of a module. -/
def CertOf (m : Module) (g : Goal) (c : Cert) : Prop :=
  NeedsCerts m ∧ g ∈ m.goals ∧ (∃ cs, m.certs = some cs ∧ c ∈ cs) ∧ c.goal = g.name

/-- A certificate is good for nothing: it has no lines, or one that cannot be read. -/
def Unreadable (g : Goal) (c : Cert) : Prop := c.lines = [] ∨ ∃ l ∈ (g.read c).lines, ¬ Readable l

/-- What a module uses: what it exports, the entities of its tokens that are not those of the imports themselves, what
its facts and goals use, and what the certificates of its goals use. -/
inductive Uses (m : Module) : Use → Prop
  | exported {i x} : i ∈ m.env.imports → m.exported i.importName i.entity = true → ImportUses i x → Uses m x
  | token {k e} : Tokens m.env k e → (∀ i, Imports m.env i → i.key ≠ k) → Uses m (.key e.key)
  | fact {f c x} : f ∈ m.facts → c ∈ f.2 → ClauseUses f.1 c x → Uses m x
  | goal {g c x} : g ∈ m.goals → c ∈ g.clauses → ClauseUses g.names c x → Uses m x
  | text {g c l s x} : CertOf m g c → (l, s) ∈ (g.read c).lines → TextUses (Imports m.env) l x → Uses m x
  | step {g c l s x} : CertOf m g c → (l, some s) ∈ (g.read c).lines → StepUses g.names s x → Uses m x

/-- An import counts as used: its entity or something of its module is, or a certificate is good for nothing. -/
def Counts (m : Module) (i : Import) : Prop :=
  (∃ g c, CertOf m g c ∧ Unreadable g c) ∨ Uses m (.key i.entity.key) ∨ Uses m (.module i.moduleId)

/-- A goal has no certificate, and the linter gets to it: every goal before it has certificates, all of use. -/
def FirstWithout (m : Module) (n : String) : Prop :=
  ∃ cs pre g post, m.certs = some cs ∧ m.goals = pre ++ g :: post ∧ g.name = n ∧ (∀ c ∈ cs, c.goal ≠ n) ∧
    ∀ g' ∈ pre, (∃ c ∈ cs, c.goal = g'.name) ∧ ∀ c ∈ cs, c.goal = g'.name → ¬ Unreadable g' c

/-- A warning comes before another or is the same: by path, line, column, name and module. -/
def Before (a b : Warning) : Prop :=
  a.path < b.path ∨ a.path = b.path ∧ (a.line < b.line ∨ a.line = b.line ∧ (a.column < b.column ∨
    a.column = b.column ∧ (a.importName < b.importName ∨ a.importName = b.importName ∧ a.moduleName ≤ b.moduleName)))

end Lint
end Acorn
