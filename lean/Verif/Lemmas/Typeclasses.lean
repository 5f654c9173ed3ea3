/-
Lemmas about typeclass inheritance.
-/
import Verif.Spec.Typeclasses
namespace Acorn

open Spec Relation

namespace Classes

/-- What holds of the binding maps: `D` is the declared relation. -/
structure Inv (D : TC → TC → Prop) (w : ClassWorld) : Prop where
  owner : ∀ m c e, (w m).get? c = some e → ∃ e', (w c.1).get? c = some e'
  sets : ∀ m c e, (w m).get? c = some e → ∀ b, b ∈ e ↔ TransGen D c b
  left : ∀ a b, D a b → ∃ e, (w a.1).get? a = some e
  right : ∀ a b, D a b → ∃ e, (w b.1).get? b = some e
  acyclic : ∀ a, ¬ TransGen D a a

theorem mem_collect {w : ClassWorld} {bs acc e : List TC} (h : collect w acc bs = some e) :
    (∀ b ∈ bs, ∃ f, (w b.1).get? b = some f) ∧
      ∀ x, x ∈ e ↔ x ∈ acc ∨ ∃ b ∈ bs, x = b ∨ ∃ f, (w b.1).get? b = some f ∧ x ∈ f := by
  induction bs generalizing acc with
  | nil =>
    simp only [collect, Option.some.injEq] at h
    subst h
    simp
  | cons b bs ih =>
    simp only [collect] at h
    split at h
    · cases h
    · rename_i f hf
      obtain ⟨h1, h2⟩ := ih h
      refine ⟨fun x hx => ?_, fun x => ?_⟩
      · rcases List.mem_cons.1 hx with rfl | hx
        · exact ⟨f, hf⟩
        · exact h1 x hx
      · rw [h2]
        simp only [List.mem_append, List.mem_cons]
        constructor
        · rintro ((h | rfl | h) | ⟨y, hy, h⟩)
          · exact .inl h
          · exact .inr ⟨_, .inl rfl, .inl rfl⟩
          · exact .inr ⟨b, .inl rfl, .inr ⟨f, hf, h⟩⟩
          · exact .inr ⟨y, .inr hy, h⟩
        · rintro (h0 | ⟨y, rfl | hy, h0⟩)
          · exact .inl (.inl h0)
          · rcases h0 with rfl | ⟨g, hg, h0⟩
            · exact .inl (.inr (.inl rfl))
            · have : f = g := by rw [hf] at hg; exact Option.some.inj hg
              subst this; exact .inl (.inr (.inr h0))
          · exact .inr ⟨y, hy, h0⟩

theorem setModule_get (w : ClassWorld) (m k : Nat) (d : ClassDefs) :
    setModule w m d k = if k = m then d else w k := rfl

/-- Edges out of a new node. -/
theorem transGen_new {D D' : TC → TC → Prop} {c : TC} {bs : List TC}
    (hD' : ∀ a b, D' a b ↔ D a b ∨ (a = c ∧ b ∈ bs)) (hr : ∀ a, ¬ D a c) (hl : ∀ b, ¬ D c b) (hc : c ∉ bs) :
    (∀ a b, a ≠ c → (TransGen D' a b ↔ TransGen D a b)) ∧
      ∀ b, TransGen D' c b ↔ ∃ x ∈ bs, b = x ∨ TransGen D x b := by
  have into : ∀ a, ¬ D' a c := fun a h => by
    rcases (hD' _ _).1 h with h | h
    · exact hr a h
    · exact hc h.2
  have one : ∀ a b, TransGen D a b → TransGen D' a b := fun a b h =>
    h.lift id fun x y hxy => (hD' _ _).2 (.inl hxy)
  have two : ∀ a b, TransGen D' a b → a ≠ c → TransGen D a b := by
    intro a b h
    induction h using TransGen.head_induction_on with
    | single h =>
      intro ha
      exact .single (((hD' _ _).1 h).resolve_right fun h => ha h.1)
    | head h _ ih =>
      rename_i x y _
      intro ha
      have hy : y ≠ c := fun e => into x (e ▸ h)
      exact .head (((hD' _ _).1 h).resolve_right fun h => ha h.1) (ih hy)
  refine ⟨fun a b ha => ⟨fun h => two a b h ha, one a b⟩, fun b => ⟨fun h => ?_, ?_⟩⟩
  · rcases TransGen.head'_iff.1 h with ⟨x, h1, h2⟩
    have hx : x ∈ bs := (((hD' _ _).1 h1).resolve_left (hl x)).2
    refine ⟨x, hx, ?_⟩
    rcases reflTransGen_iff_eq_or_transGen.1 h2 with h | h
    · exact .inl h
    · exact .inr (two _ _ h fun e => hc (e ▸ hx))
  · rintro ⟨x, hx, rfl | h⟩
    · exact .single ((hD' _ _).2 (.inr ⟨rfl, hx⟩))
    · exact .head ((hD' _ _).2 (.inr ⟨rfl, hx⟩)) (one _ _ h)

theorem Inv.declare {D D' : TC → TC → Prop} {w w' : ClassWorld} {m : Nat} {name : String} {bs : List TC} (h : Inv D w)
    (hD' : ∀ a b, D' a b ↔ D a b ∨ (a = (m, name) ∧ b ∈ bs)) (e : declare w m name bs = some w') : Inv D' w' := by
  unfold Classes.declare at e
  split at e
  · cases e
  · rename_i ext hext
    split at e
    · cases e
    · rename_i hnew
      simp only [Option.some.injEq] at e
      subst e
      obtain ⟨hdef, hmem⟩ := mem_collect hext
      have hc : (m, name) ∉ bs := fun hin => by
        obtain ⟨f, hf⟩ := hdef _ hin
        rw [hnew] at hf; cases hf
      have hr : ∀ a, ¬ D a (m, name) := fun a ha => by
        obtain ⟨f, hf⟩ := h.right _ _ ha
        rw [hnew] at hf; cases hf
      have hl : ∀ b, ¬ D (m, name) b := fun b ha => by
        obtain ⟨f, hf⟩ := h.left _ _ ha
        rw [hnew] at hf; cases hf
      obtain ⟨t1, t2⟩ := transGen_new hD' hr hl hc
      have hset : ∀ b, b ∈ ext ↔ TransGen D' (m, name) b := by
        intro b
        rw [hmem, t2]
        constructor
        · rintro (h0 | ⟨x, hx, h0⟩)
          · cases h0
          · refine ⟨x, hx, h0.imp id ?_⟩
            rintro ⟨f, hf, hb⟩
            exact (h.sets _ _ _ hf b).1 hb
        · rintro ⟨x, hx, h0⟩
          refine .inr ⟨x, hx, h0.imp id fun ht => ?_⟩
          obtain ⟨f, hf⟩ := hdef x hx
          exact ⟨f, hf, (h.sets _ _ _ hf b).2 ht⟩
      have keep : ∀ k c f, (w k).get? c = some f →
          ∃ f', (setModule w m ((w m).insert (m, name) ext) k).get? c = some f' := by
        intro k c f hf
        rw [setModule_get]
        split
        · rename_i hk; subst hk
          rw [AMap.get?_insert]
          split
          · exact ⟨_, rfl⟩
          · exact ⟨f, hf⟩
        · exact ⟨f, hf⟩
      have self : (setModule w m ((w m).insert (m, name) ext) m).get? (m, name) = some ext := by
        rw [setModule_get, if_pos rfl, AMap.get?_insert, if_pos rfl]
      have back : ∀ k c f, (setModule w m ((w m).insert (m, name) ext) k).get? c = some f →
          (c = (m, name) ∧ f = ext) ∨ (c ≠ (m, name) ∧ (w k).get? c = some f) := by
        intro k c f hf
        rw [setModule_get] at hf
        split at hf
        · rename_i hk; subst hk
          rw [AMap.get?_insert] at hf
          split at hf
          · rename_i hk; simp only [Option.some.injEq] at hf; exact .inl ⟨hk, hf.symm⟩
          · rename_i hk; exact .inr ⟨hk, hf⟩
        · refine .inr ⟨fun hcc => ?_, hf⟩
          subst hcc
          obtain ⟨f', hf'⟩ := h.owner _ _ _ hf
          rw [hnew] at hf'; cases hf'
      refine ⟨?_, ?_, ?_, ?_, ?_⟩
      · intro k c f hf
        rcases back k c f hf with ⟨rfl, rfl⟩ | ⟨-, hf⟩
        · exact ⟨_, self⟩
        · obtain ⟨f', hf'⟩ := h.owner _ _ _ hf
          exact keep _ _ _ hf'
      · intro k c f hf b
        rcases back k c f hf with ⟨rfl, rfl⟩ | ⟨hne, hf⟩
        · exact hset b
        · rw [t1 _ _ hne]; exact h.sets _ _ _ hf b
      · intro a b hab
        rcases (hD' _ _).1 hab with hab | ⟨rfl, hb⟩
        · obtain ⟨f, hf⟩ := h.left _ _ hab
          exact keep _ _ _ hf
        · exact ⟨_, self⟩
      · intro a b hab
        rcases (hD' _ _).1 hab with hab | ⟨rfl, hb⟩
        · obtain ⟨f, hf⟩ := h.right _ _ hab
          exact keep _ _ _ hf
        · obtain ⟨f, hf⟩ := hdef b hb
          exact keep _ _ _ hf
      · intro a ha
        by_cases hac : a = (m, name)
        · subst hac
          obtain ⟨x, hx, h0⟩ := (t2 _).1 ha
          rcases h0 with rfl | h0
          · exact hc hx
          · obtain ⟨y, -, hy⟩ := TransGen.tail'_iff.1 h0
            exact hr y hy
        · exact h.acyclic a ((t1 _ _ hac).1 ha)

theorem import_fold {P : TC → List TC → Prop} (hP : ∀ c e f, P c e → P c f → P c (e ++ f)) {es : List (TC × List TC)}
    (hes : ∀ p ∈ es, P p.1 p.2) {d : ClassDefs} (hd : ∀ c e, d.get? c = some e → P c e) :
    (∀ c e, (es.foldl importOne d).get? c = some e → P c e) ∧
      (∀ c e, d.get? c = some e → ∃ e', (es.foldl importOne d).get? c = some e') ∧
      ∀ c e, (es.foldl importOne d).get? c = some e → (∃ e', d.get? c = some e') ∨ ∃ e', (c, e') ∈ es := by
  induction es generalizing d with
  | nil => exact ⟨hd, fun c e h => ⟨e, h⟩, fun c e h => .inl ⟨e, h⟩⟩
  | cons p es ih =>
    rw [List.foldl_cons]
    have h1 : ∀ c e, (importOne d p).get? c = some e → P c e := by
      intro c e h
      rw [importOne, AMap.get?_insert] at h
      split at h
      · rename_i hc; subst hc
        simp only [Option.some.injEq] at h
        subst h
        cases hg : d.get? p.1 with
        | none => simpa using hes p List.mem_cons_self
        | some f => exact hP _ _ _ (hd _ _ hg) (hes p List.mem_cons_self)
      · exact hd _ _ h
    obtain ⟨a1, a2, a3⟩ := ih (fun q hq => hes q (List.mem_cons_of_mem _ hq)) h1
    refine ⟨a1, fun c e h => ?_, fun c e h => ?_⟩
    · by_cases hc : c = p.1
      · exact a2 c ((d.get? p.1).getD [] ++ p.2) (by rw [importOne, AMap.get?_insert, if_pos hc])
      · exact a2 c e (by rw [importOne, AMap.get?_insert, if_neg hc]; exact h)
    · rcases a3 c e h with ⟨e', h'⟩ | ⟨e', h'⟩
      · rw [importOne, AMap.get?_insert] at h'
        split at h'
        · rename_i hc; subst hc
          exact .inr ⟨p.2, by simp⟩
        · exact .inl ⟨e', h'⟩
      · exact .inr ⟨e', List.mem_cons_of_mem _ h'⟩

theorem Inv.import {D : TC → TC → Prop} {w : ClassWorld} (h : Inv D w) (m m' : Nat) : Inv D (importModule w m m') := by
  obtain ⟨a1, a2, a3⟩ := import_fold (P := fun c e => ∀ b, b ∈ e ↔ TransGen D c b) (es := (w m').entries) (d := w m)
    (fun c e f he hf b => by rw [List.mem_append, he, hf, or_self])
    (fun p hp => h.sets m' p.1 p.2 (AMap.get?_eq_some.2 hp)) (fun c e hc => h.sets m c e hc)
  have keep : ∀ k c f, (w k).get? c = some f → ∃ f', (importModule w m m' k).get? c = some f' := by
    intro k c f hf
    rw [importModule, setModule_get]
    split
    · rename_i hk; subst hk; exact a2 c f hf
    · exact ⟨f, hf⟩
  refine ⟨?_, ?_, fun a b hab => ?_, fun a b hab => ?_, h.acyclic⟩
  · intro k c f hf
    have : ∃ f', (w c.1).get? c = some f' := by
      rw [importModule, setModule_get] at hf
      split at hf
      · rcases a3 c f hf with ⟨e, he⟩ | ⟨e, he⟩
        · exact h.owner _ _ _ he
        · exact h.owner _ _ _ (AMap.get?_eq_some.2 he)
      · exact h.owner _ _ _ hf
    obtain ⟨f', hf'⟩ := this
    exact keep _ _ _ hf'
  · intro k c f hf b
    rw [importModule, setModule_get] at hf
    split at hf
    · exact a1 c f hf b
    · exact h.sets _ _ _ hf b
  · obtain ⟨f, hf⟩ := h.left _ _ hab
    exact keep _ _ _ hf
  · obtain ⟨f, hf⟩ := h.right _ _ hab
    exact keep _ _ _ hf

theorem inv_of_reach {w : ClassWorld} {cs : List ClassCmd} (h : ClassReach w cs) : Inv (Declares cs) w := by
  induction h with
  | init =>
    refine ⟨fun m c e h => by simp at h, fun m c e h => by simp at h, ?_, ?_, ?_⟩
    · rintro a b ⟨bs, hb, _⟩; cases hb
    · rintro a b ⟨bs, hb, _⟩; cases hb
    · intro a ha
      obtain ⟨x, ⟨bs, hb, _⟩, -⟩ := TransGen.head'_iff.1 ha
      cases hb
  | step _ e ih =>
    rename_i w w' cs c _
    cases c with
    | declare m name bs =>
      refine ih.declare (fun a b => ?_) e
      simp only [Declares, List.mem_cons, ClassCmd.declare.injEq]
      constructor
      · rintro ⟨bs', ⟨h1, h2, rfl⟩ | h, hb⟩
        · exact .inr ⟨by rw [← h1, ← h2], hb⟩
        · exact .inl ⟨bs', h, hb⟩
      · rintro (⟨bs', h, hb⟩ | ⟨rfl, hb⟩)
        · exact ⟨bs', .inr h, hb⟩
        · exact ⟨bs, .inl ⟨rfl, rfl, rfl⟩, hb⟩
    | «import» m m' =>
      simp only [ClassCmd.run, Option.some.injEq] at e
      subst e
      have : Declares (ClassCmd.import m m' :: cs) = Declares cs := by
        funext a b
        simp [Declares]
      rw [this]
      exact ih.import m m'

end Classes

namespace ClassStore

/-- What holds of a type store: `F` is the relation that was registered. -/
structure Inv (F : TC → TC → Prop) (s : ClassStore) : Prop where
  ids : ∀ c i, s.ids.get? c = some i → i.1 = c.1 ∧ (s.names i.1)[i.2]? = some c
  len : ∀ m, (s.ext m).length = (s.names m).length
  ext : ∀ i j, j ∈ s.extOf i → ∃ a b, s.ids.get? a = some i ∧ s.ids.get? b = some j ∧ F a b
  reg : ∀ m l c, (s.names m)[l]? = some c → s.ids.get? c = some (m, l)

theorem Inv.inj {F : TC → TC → Prop} {s : ClassStore} (h : Inv F s) {a b : TC} {i : Nat × Nat} (ha : s.ids.get? a = some i)
    (hb : s.ids.get? b = some i) : a = b := by
  have := (h.ids _ _ ha).2.symm.trans (h.ids _ _ hb).2
  simpa using this

/-- Nothing registered is lost. -/
structure Le (s s' : ClassStore) : Prop where
  ids : ∀ c i, s.ids.get? c = some i → s'.ids.get? c = some i
  ext : ∀ i j, j ∈ s.extOf i → j ∈ s'.extOf i

theorem Le.refl (s : ClassStore) : Le s s := ⟨fun _ _ h => h, fun _ _ h => h⟩
theorem Le.trans {a b c : ClassStore} (h : Le a b) (h' : Le b c) : Le a c :=
  ⟨fun x i hx => h'.ids _ _ (h.ids _ _ hx), fun i j hj => h'.ext _ _ (h.ext _ _ hj)⟩

theorem addClass_spec {F : TC → TC → Prop} {s : ClassStore} (h : Inv F s) (c : TC) :
    Inv F (s.addClass c).2 ∧ Le s (s.addClass c).2 ∧ (s.addClass c).2.ids.get? c = some (s.addClass c).1 := by
  unfold addClass
  split
  · rename_i i hi
    exact ⟨h, .refl _, hi⟩
  · rename_i hn
    dsimp only
    have hlen : ((if c.1 = c.1 then s.names c.1 ++ [c] else s.names c.1))[(s.names c.1).length]? = some c := by
      rw [if_pos rfl, List.getElem?_append_right (Nat.le_refl _)]; simp
    have hext : ∀ i, extOf { names := fun m => if m = c.1 then s.names m ++ [c] else s.names m, ids := s.ids.insert c (c.1, (s.names c.1).length), ext := fun m => if m = c.1 then s.ext m ++ [[]] else s.ext m } i = s.extOf i := by
      intro i
      simp only [extOf]
      split
      · rename_i hi
        by_cases hl : i.2 < (s.ext i.1).length
        · rw [List.getElem?_append_left hl]
        · rw [List.getElem?_append_right (by omega), List.getElem?_eq_none (l := s.ext i.1) (by omega)]
          cases hk : ([[]] : List (List (Nat × Nat)))[i.2 - (s.ext i.1).length]? with
          | none => rfl
          | some v =>
            have := List.mem_of_getElem? hk
            simp only [List.mem_singleton] at this
            subst this; rfl
      · rfl
    have hids : ∀ a i, s.ids.get? a = some i → (s.ids.insert c (c.1, (s.names c.1).length)).get? a = some i := by
      intro a i ha
      rw [AMap.get?_insert, if_neg]
      · exact ha
      · rintro rfl; rw [hn] at ha; cases ha
    have hnames : ∀ (m l : Nat) (a : TC), (s.names m)[l]? = some a →
        ((if m = c.1 then s.names m ++ [c] else s.names m) : List TC)[l]? = some a := by
      intro m l a ha
      split
      · rw [List.getElem?_append_left]
        · exact ha
        · exact (List.getElem?_eq_some_iff.1 ha).1
      · exact ha
    refine ⟨⟨?_, ?_, ?_, ?_⟩, ⟨hids, fun i j hj => (by rw [hext]; exact hj)⟩, (by rw [AMap.get?_insert, if_pos rfl])⟩
    · intro a i ha
      rw [AMap.get?_insert] at ha
      split at ha
      · rename_i hac; subst hac
        simp only [Option.some.injEq] at ha
        subst ha
        exact ⟨rfl, hlen⟩
      · exact ⟨(h.ids _ _ ha).1, hnames _ _ _ (h.ids _ _ ha).2⟩
    · intro m
      dsimp only
      split
      · simp [h.len]
      · exact h.len m
    · intro i j hj
      rw [hext] at hj
      obtain ⟨a, b, ha, hb, hf⟩ := h.ext i j hj
      exact ⟨a, b, hids _ _ ha, hids _ _ hb, hf⟩
    · intro m l a ha
      dsimp only at ha ⊢
      split at ha
      · rename_i hm
        by_cases hl : l < (s.names m).length
        · rw [List.getElem?_append_left hl] at ha
          exact hids _ _ (h.reg _ _ _ ha)
        · rw [List.getElem?_append_right (by omega)] at ha
          have hk := (List.getElem?_eq_some_iff.1 ha).1
          simp only [List.length_singleton] at hk
          have h0 : l - (s.names m).length = 0 := by omega
          rw [h0] at ha
          simp only [List.getElem?_cons_zero, Option.some.injEq] at ha
          subst ha
          rw [AMap.get?_insert, if_pos rfl]
          have : l = (s.names m).length := by omega
          rw [this, hm]
      · exact hids _ _ (h.reg _ _ _ ha)

theorem extOf_addTo (s : ClassStore) (i b k : Nat × Nat) :
    (s.addTo i b).extOf k = if k = i ∧ i.2 < (s.ext i.1).length then b :: s.extOf k else s.extOf k := by
  obtain ⟨m, l⟩ := i
  obtain ⟨m', l'⟩ := k
  simp only [addTo, extOf, Prod.mk.injEq]
  by_cases hm : m' = m
  · subst hm
    simp only [if_true, true_and, List.getElem?_modify]
    by_cases hl : l' = l
    · subst hl
      by_cases hlt : l' < (s.ext m').length
      · simp [hlt]
      · simp [hlt, List.getElem?_eq_none (Nat.le_of_not_lt hlt)]
    · have hl' : ¬ l = l' := fun e => hl e.symm
      simp [hl, hl']
  · simp [hm]

theorem addTo_spec {F : TC → TC → Prop} {s : ClassStore} (h : Inv F s) {c d : TC} {i b : Nat × Nat}
    (hc : s.ids.get? c = some i) (hd : s.ids.get? d = some b) (hf : F c d) :
    Inv F (s.addTo i b) ∧ Le s (s.addTo i b) ∧ b ∈ (s.addTo i b).extOf i := by
  have hlt : i.2 < (s.ext i.1).length := by
    rw [h.len]
    exact (List.getElem?_eq_some_iff.1 (h.ids _ _ hc).2).1
  refine ⟨⟨h.ids, fun m => ?_, fun k j hj => ?_, h.reg⟩, ⟨fun _ _ h => h, fun k j hj => ?_⟩, ?_⟩
  · simp only [addTo]
    split
    · rw [List.length_modify]; exact h.len m
    · exact h.len m
  · rw [extOf_addTo] at hj
    split at hj
    · rename_i hk
      rcases List.mem_cons.1 hj with rfl | hj
      · exact ⟨c, d, by rw [hk.1]; exact hc, hd, hf⟩
      · exact h.ext k j hj
    · exact h.ext k j hj
  · rw [extOf_addTo]
    split
    · exact List.mem_cons_of_mem _ hj
    · exact hj
  · rw [extOf_addTo, if_pos ⟨rfl, hlt⟩]
    exact List.mem_cons_self

theorem addMany_spec {F : TC → TC → Prop} {c : TC} {i : Nat × Nat} (js : List (Nat × Nat)) {s : ClassStore} (h : Inv F s)
    (hc : s.ids.get? c = some i) (hj : ∀ j ∈ js, ∃ d, s.ids.get? d = some j ∧ F c d) :
    Inv F (js.foldl (fun s b' => s.addTo i b') s) ∧ Le s (js.foldl (fun s b' => s.addTo i b') s) := by
  induction js generalizing s with
  | nil => exact ⟨h, .refl _⟩
  | cons j js ih =>
    obtain ⟨d, hd, hf⟩ := hj j List.mem_cons_self
    obtain ⟨h1, h2, -⟩ := addTo_spec h hc hd hf
    obtain ⟨h3, h4⟩ := ih h1 (h2.ids _ _ hc) (fun k hk => by
      obtain ⟨d, hd, hf⟩ := hj k (List.mem_cons_of_mem _ hk)
      exact ⟨d, h2.ids _ _ hd, hf⟩)
    exact ⟨h3, h2.trans h4⟩

theorem addExtends_spec {F : TC → TC → Prop} (hF : ∀ a b c, F a b → F b c → F a c) {s : ClassStore} (h : Inv F s) {c d : TC}
    {i b : Nat × Nat} (hc : s.ids.get? c = some i) (hd : s.ids.get? d = some b) (hf : F c d) :
    Inv F (s.addExtends i b) ∧ Le s (s.addExtends i b) ∧ b ∈ (s.addExtends i b).extOf i := by
  obtain ⟨h1, h2, h3⟩ := addTo_spec h hc hd hf
  obtain ⟨h4, h5⟩ := addMany_spec ((s.addTo i b).extOf b) h1 (h2.ids _ _ hc) (fun j hj => by
    obtain ⟨x, y, hx, hy, hxy⟩ := h1.ext _ _ hj
    have := h1.inj hx (h2.ids _ _ hd)
    subst this
    exact ⟨y, hy, hF _ _ _ hf hxy⟩)
  exact ⟨h4, h2.trans h5, h5.ext _ _ h3⟩

theorem addBases_spec {F : TC → TC → Prop} (hF : ∀ a b c, F a b → F b c → F a c) {c : TC} {i : Nat × Nat} (bs : List TC)
    {s : ClassStore} (h : Inv F s) (hc : s.ids.get? c = some i) (hb : ∀ b ∈ bs, F c b) :
    Inv F (bs.foldl (addBase i) s) ∧ Le s (bs.foldl (addBase i) s) ∧
      ∀ b ∈ bs, ∃ j, (bs.foldl (addBase i) s).ids.get? b = some j ∧ j ∈ (bs.foldl (addBase i) s).extOf i := by
  induction bs generalizing s with
  | nil => exact ⟨h, .refl _, fun b hb => by cases hb⟩
  | cons b bs ih =>
    rw [List.foldl_cons]
    obtain ⟨h1, h2, h3⟩ := addClass_spec h b
    obtain ⟨h4, h5, h6⟩ := addExtends_spec hF h1 (h2.ids _ _ hc) h3 (hb b List.mem_cons_self)
    have h25 := h2.trans h5
    obtain ⟨h7, h8, h9⟩ := ih (s := addBase i s b) h4 (h25.ids _ _ hc) (fun x hx => hb x (List.mem_cons_of_mem _ hx))
    refine ⟨h7, h25.trans h8, fun x hx => ?_⟩
    rcases List.mem_cons.1 hx with rfl | hx
    · exact ⟨_, h8.ids _ _ (h5.ids _ _ h3), h8.ext _ _ h6⟩
    · exact h9 x hx

theorem run_spec {F : TC → TC → Prop} (hF : ∀ a b c, F a b → F b c → F a c) {s : ClassStore} (h : Inv F s) (k : StoreCmd)
    (hk : ∀ c bs, k = .extends c bs → ∀ b ∈ bs, F c b) :
    Inv F (k.run s) ∧ Le s (k.run s) ∧
      ∀ c bs, k = .extends c bs → ∀ b ∈ bs, ∃ i j, (k.run s).ids.get? c = some i ∧ (k.run s).ids.get? b = some j ∧
        j ∈ (k.run s).extOf i := by
  cases k with
  | add c =>
    obtain ⟨h1, h2, -⟩ := addClass_spec h c
    exact ⟨h1, h2, fun c bs e => by cases e⟩
  | «extends» c bs =>
    obtain ⟨h1, h2, h3⟩ := addClass_spec h c
    obtain ⟨h4, h5, h6⟩ := addBases_spec hF bs h1 h3 (hk c bs rfl)
    refine ⟨h4, h2.trans h5, fun c' bs' e b hb => ?_⟩
    cases e
    obtain ⟨j, hj, hm⟩ := h6 b hb
    exact ⟨_, j, h5.ids _ _ h3, hj, hm⟩

theorem runs_spec {F : TC → TC → Prop} (hF : ∀ a b c, F a b → F b c → F a c) (ks : List StoreCmd) {s : ClassStore} (h : Inv F s)
    (hk : ∀ c bs, StoreCmd.extends c bs ∈ ks → ∀ b ∈ bs, F c b) :
    Inv F (ks.foldl StoreCmd.run s) ∧ Le s (ks.foldl StoreCmd.run s) ∧
      ∀ c bs, StoreCmd.extends c bs ∈ ks → ∀ b ∈ bs, ∃ i j, (ks.foldl StoreCmd.run s).ids.get? c = some i ∧
        (ks.foldl StoreCmd.run s).ids.get? b = some j ∧ j ∈ (ks.foldl StoreCmd.run s).extOf i := by
  induction ks generalizing s with
  | nil => exact ⟨h, .refl _, fun c bs hm => by cases hm⟩
  | cons k ks ih =>
    rw [List.foldl_cons]
    obtain ⟨h1, h2, h3⟩ := run_spec hF h k (fun c bs e => hk c bs (by rw [e]; exact List.mem_cons_self))
    obtain ⟨h4, h5, h6⟩ := ih h1 (fun c bs hm => hk c bs (List.mem_cons_of_mem _ hm))
    refine ⟨h4, h2.trans h5, fun c bs hm b hb => ?_⟩
    rcases List.mem_cons.1 hm with e | hm
    · obtain ⟨i, j, hi, hj, hij⟩ := h3 c bs e.symm b hb
      exact ⟨i, j, h5.ids _ _ hi, h5.ids _ _ hj, h5.ext _ _ hij⟩
    · exact h6 c bs hm b hb

theorem inv_empty (F : TC → TC → Prop) : Inv F empty :=
  ⟨fun c i h => by simp [empty] at h, fun _ => rfl, fun i j h => by simp [empty, extOf] at h,
    fun m l c h => by simp [empty] at h⟩

end ClassStore
end Acorn
