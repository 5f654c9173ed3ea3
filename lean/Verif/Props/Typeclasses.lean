/-
C40: typeclass inheritance is transitive and acyclic.
-/
import Verif.Lemmas.Typeclasses
namespace Acorn

open Spec Relation

/-- In every module that knows a typeclass, the extension relation reported for it is the transitive closure
of what was declared, wherever it was declared and through whatever imports the module learned of it. -/
theorem C40_transitive {w : ClassWorld} {cs : List ClassCmd} (h : ClassReach w cs) {m : Nat} {c : TC}
    (hc : (w m).contains c = true) (b : TC) :
    Classes.isExtension (w m) c b = true ↔ TransGen (Declares cs) c b := by
  obtain ⟨e, he⟩ := AMap.contains_iff.1 hc
  rw [← (Classes.inv_of_reach h).sets m c e he b, Classes.isExtension, he]
  simp

/-- No typeclass extends itself, directly or through others. -/
theorem C40_acyclic {w : ClassWorld} {cs : List ClassCmd} (h : ClassReach w cs) (m : Nat) (c : TC) :
    ¬ TransGen (Declares cs) c c ∧ Classes.isExtension (w m) c c = false := by
  have hi := Classes.inv_of_reach h
  refine ⟨hi.acyclic c, ?_⟩
  cases e : Classes.isExtension (w m) c c with
  | false => rfl
  | true =>
    have hc : (w m).contains c = true := by
      unfold Classes.isExtension at e
      split at e
      · cases e
      · rename_i x hx; exact AMap.contains_iff.2 ⟨x, hx⟩
    exact absurd ((C40_transitive h hc c).1 e) (hi.acyclic c)

/-- Two modules that both know a typeclass agree on what it extends. -/
theorem C40_modules_agree {w : ClassWorld} {cs : List ClassCmd} (h : ClassReach w cs) {m m' : Nat} {c : TC}
    (hc : (w m).contains c = true) (hc' : (w m').contains c = true) (b : TC) :
    Classes.isExtension (w m) c b = Classes.isExtension (w m') c b := by
  rw [Bool.eq_iff_iff, C40_transitive h hc, C40_transitive h hc']

/-- The type store of the kernel, fed with the facts about some of the typeclasses in any order and mixed
with other registrations, reports for these typeclasses exactly the transitive closure of what was
declared, and for other typeclasses nothing. -/
theorem C40_store {w : ClassWorld} {cs : List ClassCmd} (h : ClassReach w cs) {ks : List StoreCmd}
    (hk : ∀ c bs, StoreCmd.extends c bs ∈ ks → ∃ m e, (w m).get? c = some e ∧ ∀ b, b ∈ bs ↔ b ∈ e)
    {s : ClassStore} (hs : s = ks.foldl StoreCmd.run .empty) {c b : TC} {i j : Nat × Nat}
    (hi : s.ids.get? c = some i) (hj : s.ids.get? b = some j) :
    s.isExtension i j = true ↔ (∃ bs, StoreCmd.extends c bs ∈ ks) ∧ TransGen (Declares cs) c b := by
  have hw := Classes.inv_of_reach h
  have hset : ∀ c bs, StoreCmd.extends c bs ∈ ks → ∀ b, b ∈ bs ↔ TransGen (Declares cs) c b := by
    intro c bs hm b
    obtain ⟨m, e, he, hb⟩ := hk c bs hm
    rw [hb, hw.sets m c e he]
  -- facts whose classes were given
  let F : TC → TC → Prop := fun a b => (∃ bs, StoreCmd.extends a bs ∈ ks) ∧ TransGen (Declares cs) a b
  obtain ⟨h1, -, h3⟩ := ClassStore.runs_spec (F := F) (fun a b c h1 h2 => ⟨h1.1, h1.2.trans h2.2⟩) ks
    (ClassStore.inv_empty F) (fun c bs hm b hb => ⟨⟨bs, hm⟩, (hset c bs hm b).1 hb⟩)
  subst hs
  rw [ClassStore.isExtension, List.contains_iff_mem]
  constructor
  · intro hm
    obtain ⟨a, a', ha, ha', hf⟩ := h1.ext i j hm
    have e1 := h1.inj ha hi
    have e2 := h1.inj ha' hj
    subst e1; subst e2
    exact hf
  · rintro ⟨⟨bs, hbs⟩, ht⟩
    obtain ⟨i', j', hi', hj', hm⟩ := h3 c bs hbs b ((hset c bs hbs b).2 ht)
    rw [hi] at hi'; rw [hj] at hj'
    cases hi'; cases hj'
    exact hm

/-- Distinct typeclasses have distinct ids in the type store, whatever was registered. -/
theorem C40_ids_distinct (ks : List StoreCmd) {c b : TC} {i : Nat × Nat}
    (hc : (ks.foldl StoreCmd.run .empty).ids.get? c = some i)
    (hb : (ks.foldl StoreCmd.run .empty).ids.get? b = some i) : c = b :=
  (ClassStore.runs_spec (F := fun _ _ => True) (fun _ _ _ _ _ => trivial) ks (ClassStore.inv_empty _)
    (fun _ _ _ _ _ => trivial)).1.inj hc hb

/-- Disagreement with the comment on `add_typeclass_extends` ("this should be the direct extension
relationship; the transitive closure is computed automatically"): if only direct relationships are given, and
a typeclass before its base, the closure is not computed.  The callers give complete sets, so `C40_store`
holds for them in every order. -/
theorem C40_direct_order_matters : ∃ (a b c : TC),
    let s := [StoreCmd.extends a [b], StoreCmd.extends b [c]].foldl StoreCmd.run .empty
    let s' := [StoreCmd.extends b [c], StoreCmd.extends a [b]].foldl StoreCmd.run .empty
    s.isExtension (s.addClass a).1 (s.addClass c).1 = false ∧
      s'.isExtension (s'.addClass a).1 (s'.addClass c).1 = true :=
  ⟨(0, "a"), (0, "b"), (0, "c"), by decide +kernel⟩

/-- Non-vacuity: a diamond over two modules. -/
def demoClasses : List ClassCmd :=
  [.declare 1 "ring" [(1, "group"), (0, "semigroup")], .declare 1 "group" [(0, "monoid")], .import 1 0,
    .declare 0 "monoid" [(0, "semigroup")], .declare 0 "semigroup" []]

example : ∃ w, ClassReach w demoClasses ∧ (w 1).contains (1, "ring") = true ∧
    Classes.isExtension (w 1) (1, "ring") (0, "monoid") = true ∧
    Classes.isExtension (w 1) (1, "group") (0, "semigroup") = true ∧
    Classes.isExtension (w 1) (0, "monoid") (1, "group") = false := by
  refine ⟨_, .step (.step (.step (.step (.step .init rfl) rfl) rfl) rfl) rfl, ?_⟩
  decide +kernel

/-- Non-vacuity: the facts of the diamond, the derived class first. -/
example : ∃ s : ClassStore, s = [StoreCmd.extends (1, "ring") [(0, "semigroup"), (0, "monoid"), (1, "group")],
      StoreCmd.extends (1, "group") [(0, "monoid"), (0, "semigroup")]].foldl StoreCmd.run .empty ∧
    s.ids.get? (1, "ring") = some (1, 0) ∧ s.ids.get? (0, "monoid") = some (0, 1) ∧
    s.isExtension (1, 0) (0, 1) = true :=
  ⟨_, rfl, by decide +kernel⟩

end Acorn
