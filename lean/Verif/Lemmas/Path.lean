import Verif.Spec.Paths
namespace Acorn
open Spec Term

theorem getAt_iff (t s : Term) (p : List PathStep) : t.getAt p = some s ↔ At t p s := by
  constructor
  · intro h
    induction p generalizing t with
    | nil => simp [getAt] at h; subst h; exact .here _
    | cons x p ih =>
      cases t with
      | atom a => simp [getAt] at h
      | bind b ty body => simp [getAt] at h
      | app f a =>
        cases x with
        | function => exact .left (ih f (by simpa [getAt] using h))
        | argument => exact .right (ih a (by simpa [getAt] using h))
  · intro h
    induction h with
    | here t => cases t <;> rfl
    | left _ ih => simpa [getAt] using ih
    | right _ ih => simpa [getAt] using ih

theorem getAt_nil (t : Term) : t.getAt [] = some t := by cases t <;> rfl
theorem replaceAt_nil (t r : Term) : t.replaceAt [] r = some r := by cases t <;> rfl

theorem replaceAt_isSome (t r : Term) (p : List PathStep) :
    (t.replaceAt p r).isSome = (t.getAt p).isSome := by
  induction p generalizing t with
  | nil => simp [getAt_nil, replaceAt_nil]
  | cons x p ih =>
    cases t with
    | atom a => simp [getAt, replaceAt]
    | bind b ty body => simp [getAt, replaceAt]
    | app f a => cases x <;> simp [getAt, replaceAt, ih]

theorem getAt_replaceAt (t t' r : Term) (p : List PathStep) (h : t.replaceAt p r = some t') :
    t'.getAt p = some r := by
  induction p generalizing t t' with
  | nil => simp [replaceAt_nil] at h; subst h; exact getAt_nil _
  | cons x p ih =>
    cases t with
    | atom a => simp [replaceAt] at h
    | bind b ty body => simp [replaceAt] at h
    | app f a =>
      cases x with
      | function =>
        simp [replaceAt] at h
        obtain ⟨f', h1, rfl⟩ := h
        simpa [getAt] using ih _ _ h1
      | argument =>
        simp [replaceAt] at h
        obtain ⟨f', h1, rfl⟩ := h
        simpa [getAt] using ih _ _ h1

theorem replaceAt_self (t s : Term) (p : List PathStep) (h : t.getAt p = some s) :
    t.replaceAt p s = some t := by
  induction p generalizing t with
  | nil => simp [getAt_nil] at h; subst h; exact replaceAt_nil _ _
  | cons x p ih =>
    cases t with
    | atom a => simp [getAt] at h
    | bind b ty body => simp [getAt] at h
    | app f a =>
      cases x with
      | function => simp [getAt] at h; simp [replaceAt, ih _ h]
      | argument => simp [getAt] at h; simp [replaceAt, ih _ h]

theorem getAt_replaceAt_disjoint (t t' r : Term) (p q : List PathStep) (hd : Disjoint p q)
    (h : t.replaceAt p r = some t') : t'.getAt q = t.getAt q := by
  induction p generalizing t t' q with
  | nil => exact absurd (List.nil_prefix) hd.1
  | cons x p ih =>
    cases q with
    | nil => exact absurd (List.nil_prefix) hd.2
    | cons y q =>
      have hd' : x = y → Disjoint p q := by
        rintro rfl
        exact ⟨fun hh => hd.1 (List.prefix_cons_inj x |>.2 hh),
          fun hh => hd.2 (List.prefix_cons_inj x |>.2 hh)⟩
      cases t with
      | atom a => simp [replaceAt] at h
      | bind b ty body => simp [replaceAt] at h
      | app f a =>
        cases x <;> simp [replaceAt] at h <;> obtain ⟨f', h1, rfl⟩ := h <;> cases y <;>
          simp [getAt] <;> exact ih _ _ _ (hd' rfl) h1

theorem replaceAt_comm (t r s : Term) (p q : List PathStep) (hd : Disjoint p q) :
    (t.replaceAt p r).bind (fun u => u.replaceAt q s)
      = (t.replaceAt q s).bind (fun u => u.replaceAt p r) := by
  induction p generalizing t q with
  | nil => exact absurd (List.nil_prefix) hd.1
  | cons x p ih =>
    cases q with
    | nil => exact absurd (List.nil_prefix) hd.2
    | cons y q =>
      have hd' : x = y → Disjoint p q := by
        rintro rfl
        exact ⟨fun hh => hd.1 (List.prefix_cons_inj x |>.2 hh),
          fun hh => hd.2 (List.prefix_cons_inj x |>.2 hh)⟩
      cases t with
      | atom a => simp [replaceAt]
      | bind b ty body => simp [replaceAt]
      | app f a =>
        cases x <;> cases y
        · have := ih f q (hd' rfl)
          cases e1 : f.replaceAt p r <;> cases e2 : f.replaceAt q s <;>
            simp [e1, e2] at this <;> simp [replaceAt, e1, e2, this]
          simp [← this]
        · cases e1 : f.replaceAt p r <;> cases e2 : a.replaceAt q s <;> simp [replaceAt, e1, e2]
        · cases e1 : a.replaceAt p r <;> cases e2 : f.replaceAt q s <;> simp [replaceAt, e1, e2]
        · have := ih a q (hd' rfl)
          cases e1 : a.replaceAt p r <;> cases e2 : a.replaceAt q s <;>
            simp [e1, e2] at this <;> simp [replaceAt, e1, e2, this]
          simp [← this]

/-- Positions reached without passing through a term that counts as `true`. -/
inductive Vis : Term → List PathStep → Term → Prop
  | here (t : Term) : t.isTrue = false → Vis t [] t
  | left {f a s : Term} {p : List PathStep} :
      (Term.app f a).isTrue = false → Vis f p s → Vis (.app f a) (.function :: p) s
  | right {f a s : Term} {p : List PathStep} :
      (Term.app f a).isTrue = false → Vis a p s → Vis (.app f a) (.argument :: p) s

theorem rewritable_mem (t : Term) (pre : List PathStep) (l : List (List PathStep × Term))
    (h : t.rewritable pre = some l) (q : List PathStep) (s : Term) :
    (q, s) ∈ l ↔ ∃ p, q = pre ++ p ∧ Vis t p s := by
  induction t generalizing pre l with
  | atom a =>
    simp only [rewritable] at h
    split at h
    · rename_i ht
      cases h
      simp only [List.not_mem_nil, false_iff]
      rintro ⟨p, -, hv⟩
      cases hv with
      | here _ h => rw [h] at ht; cases ht
    · rename_i ht
      split at h
      · cases h
      · cases h
        simp only [List.mem_singleton, Prod.mk.injEq]
        constructor
        · rintro ⟨rfl, rfl⟩
          exact ⟨[], by simp, .here _ (by simpa using ht)⟩
        · rintro ⟨p, rfl, hv⟩
          cases hv
          simp
  | bind b ty body ih1 ih2 =>
    simp only [rewritable] at h
    split at h
    · rename_i ht
      cases h
      simp only [List.not_mem_nil, false_iff]
      rintro ⟨p, -, hv⟩
      cases hv with
      | here _ h => rw [h] at ht; cases ht
    · rename_i ht
      split at h
      · cases h
      · cases h
        simp only [List.mem_singleton, Prod.mk.injEq]
        constructor
        · rintro ⟨rfl, rfl⟩
          exact ⟨[], by simp, .here _ (by simpa using ht)⟩
        · rintro ⟨p, rfl, hv⟩
          cases hv
          simp
  | app f a ihf iha =>
    simp only [rewritable] at h
    split at h
    · rename_i ht
      cases h
      simp only [List.not_mem_nil, false_iff]
      rintro ⟨p, -, hv⟩
      cases hv with
      | here _ h => rw [h] at ht; cases ht
      | left h _ => rw [h] at ht; cases ht
      | right h _ => rw [h] at ht; cases ht
    · rename_i ht
      have ht' : (Term.app f a).isTrue = false := by simpa using ht
      simp only [Option.bind_eq_bind, Option.bind_eq_some_iff, Option.pure_def,
        Option.some.injEq] at h
      obtain ⟨l1, h1, l2, h2, rfl⟩ := h
      simp only [List.mem_append, List.mem_singleton, Prod.mk.injEq,
        ihf _ _ h1, iha _ _ h2]
      constructor
      · rintro ((⟨p, rfl, hv⟩ | ⟨p, rfl, hv⟩) | ⟨rfl, rfl⟩)
        · exact ⟨.function :: p, by simp, .left ht' hv⟩
        · exact ⟨.argument :: p, by simp, .right ht' hv⟩
        · exact ⟨[], by simp, .here _ ht'⟩
      · rintro ⟨p, rfl, hv⟩
        cases hv with
        | here => exact Or.inr ⟨by simp, rfl⟩
        | left _ hv => exact Or.inl (Or.inl ⟨_, by simp, hv⟩)
        | right _ hv => exact Or.inl (Or.inr ⟨_, by simp, hv⟩)

theorem rewritable_nodup (t : Term) (pre : List PathStep) (l : List (List PathStep × Term))
    (h : t.rewritable pre = some l) : (l.map Prod.fst).Nodup := by
  induction t generalizing pre l with
  | atom a =>
    simp only [rewritable] at h
    split at h
    · cases h; simp
    · split at h <;> cases h; simp
  | bind b ty body ih1 ih2 =>
    simp only [rewritable] at h
    split at h
    · cases h; simp
    · split at h <;> cases h; simp
  | app f a ihf iha =>
    simp only [rewritable] at h
    split at h
    · cases h; simp
    · simp only [Option.bind_eq_bind, Option.bind_eq_some_iff, Option.pure_def,
        Option.some.injEq] at h
      obtain ⟨l1, h1, l2, h2, rfl⟩ := h
      simp only [List.map_append, List.map_cons, List.map_nil]
      rw [List.nodup_append, List.nodup_append]
      refine ⟨⟨ihf _ _ h1, iha _ _ h2, ?_⟩, by simp, ?_⟩
      · rintro x hx y hy rfl
        obtain ⟨⟨q, s⟩, hm, rfl⟩ := List.mem_map.1 hx
        obtain ⟨⟨q', s'⟩, hm', heq⟩ := List.mem_map.1 hy
        obtain ⟨p, rfl, -⟩ := (rewritable_mem f _ _ h1 _ _).1 hm
        obtain ⟨p', rfl, -⟩ := (rewritable_mem a _ _ h2 _ _).1 hm'
        simp at heq
      · rintro x hx y hy rfl
        simp only [List.mem_singleton] at hy
        subst hy
        rcases List.mem_append.1 hx with hx | hx
        · obtain ⟨⟨q, s⟩, hm, heq⟩ := List.mem_map.1 hx
          obtain ⟨p, rfl, -⟩ := (rewritable_mem f _ _ h1 _ _).1 hm
          simp at heq
        · obtain ⟨⟨q, s⟩, hm, heq⟩ := List.mem_map.1 hx
          obtain ⟨p, rfl, -⟩ := (rewritable_mem a _ _ h2 _ _).1 hm
          simp at heq

theorem Vis.to_at {t s : Term} {p : List PathStep} (h : Vis t p s) : At t p s := by
  induction h with
  | here t _ => exact .here t
  | left _ _ ih => exact .left ih
  | right _ _ ih => exact .right ih

theorem Vis.ne_tt {t s : Term} {p : List PathStep} (h : Vis t p s) : s ≠ .tt := by
  induction h with
  | here t h => rintro rfl; simp [Term.isTrue, headAtom] at h
  | left _ _ ih => exact ih
  | right _ _ ih => exact ih

theorem vis_of_at {t s : Term} {p : List PathStep} (h : At t p s)
    (ht : ∀ q u, At t q u → u.isTrue = true → u = .tt) (hs : s ≠ .tt) : Vis t p s := by
  induction h with
  | here t =>
    refine .here t ?_
    cases e : t.isTrue with
    | false => rfl
    | true => exact absurd (ht [] t (.here t) e) hs
  | @left f a s p h ih =>
    refine .left ?_ (ih (fun q u hq => ht _ u (.left hq)) hs)
    cases e : (Term.app f a).isTrue with
    | false => rfl
    | true => cases ht [] _ (.here _) e
  | @right f a s p h ih =>
    refine .right ?_ (ih (fun q u hq => ht _ u (.right hq)) hs)
    cases e : (Term.app f a).isTrue with
    | false => rfl
    | true => cases ht [] _ (.here _) e

theorem rewritable_isSome (t : Term) (pre : List PathStep)
    (h : ∀ p s, Vis t p s → s.isVariable = false) : (t.rewritable pre).isSome = true := by
  induction t generalizing pre with
  | atom a =>
    simp only [rewritable]
    split
    · rfl
    · rename_i ht
      rw [if_neg (by rw [h [] _ (.here _ (by simpa using ht))]; simp)]; rfl
  | bind b ty body ih1 ih2 =>
    simp only [rewritable]
    split
    · rfl
    · rfl
  | app f a ihf iha =>
    simp only [rewritable]
    split
    · rfl
    · rename_i ht
      have ht' : (Term.app f a).isTrue = false := by simpa using ht
      have h1 := ihf (pre ++ [.function]) (fun p s hv => h _ s (.left ht' hv))
      have h2 := iha (pre ++ [.argument]) (fun p s hv => h _ s (.right ht' hv))
      obtain ⟨l1, h1⟩ := Option.isSome_iff_exists.1 h1
      obtain ⟨l2, h2⟩ := Option.isSome_iff_exists.1 h2
      simp [h1, h2]

end Acorn
