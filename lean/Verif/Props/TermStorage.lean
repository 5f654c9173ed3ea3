/-
C01, C02: flat storage of terms.
-/
import Verif.Lemmas.FlatTerm
namespace Acorn
open Flat

/-! ### C01: flat term storage is lossless -/

/-- Taking an application or binder term apart returns exactly the two pieces it was built from. -/
theorem C01_decompose_node (k : Mark) (l r : Term) (h : l.size + 1 < 65536) :
    decompose (mkNode k (encode l) (encode r)) = some (.node k (encode l) (encode r)) :=
  decompose_mkNode k _ _ (by rw [encode_length]; omega) (encode_ne_nil l)

/-- Taking an atom apart returns the atom. -/
theorem C01_decompose_atom (a : Atom) : decompose (mkAtom a) = some (.atom a) := rfl

/-- `apply` does not panic, and builds the marker followed by both pieces. -/
theorem C01_apply_total (f a : Term) (h : f.size + 1 < 65536) :
    mkApply (encode f) (encode a) = some (encode (.app f a)) := by
  have hf := size_pos f
  have ha := size_pos a
  have hoff := ofNat_toNat (n := 1 + (encode f).length) (by rw [encode_length]; omega)
  simp only [mkApply, hoff]
  rw [if_neg]
  · rfl
  · simp [mkNode, encode_length]; omega

/-- Even for pieces of arbitrary size: whatever `apply` returns can be decomposed into an application
with two non-empty pieces (so a wrapped offset is either caught or still splits the vector). -/
theorem C01_apply_result {f a cs : List Comp} (h : mkApply f a = some cs) :
    ∃ l r, decompose cs = some (.node .app l r) ∧ l ≠ [] ∧ r ≠ [] ∧ cs.length = 1 + l.length + r.length := by
  simp only [mkApply] at h
  split at h
  · cases h
  · rename_i hoff
    cases h
    have hlen : (mkNode .app f a).length = 1 + (f.length + a.length) := by simp [mkNode]; omega
    rw [hlen] at hoff
    match hr : f ++ a with
    | [] =>
      have := congrArg List.length hr
      simp at this
      simp [this] at hoff
    | x :: xs =>
      have hx : xs.length + 1 = f.length + a.length := by
        have := congrArg List.length hr; simp at this; omega
      simp only [mkNode, hr]
      rw [decompose]
      · rw [if_pos (by simp only [List.length_cons]; omega)]
        refine ⟨_, _, rfl, ?_, ?_, ?_⟩
        · apply List.ne_nil_of_length_pos
          simp only [List.length_drop, List.length_take, List.length_cons]; omega
        · apply List.ne_nil_of_length_pos
          simp only [List.length_drop, List.length_cons]; omega
        · simp only [List.length_drop, List.length_take, List.length_cons]; omega
      · simp

/-- Non-vacuity: `f(x0)`. -/
example : mkApply (mkAtom (.sym (.global 0 0))) (mkAtom (.fvar 0)) =
    some [.mark .app 2, .atom (.sym (.global 0 0)), .atom (.fvar 0)] := by decide

/-- A whole term can be read back from its stored vector. -/
theorem C01_read_back (t : Term) (h : t.size < 65536) :
    readTree (encode t).length (encode t) = some t :=
  readTree_encode t (fits_of_size t h) _ (by rw [encode_length]; omega)

/-- Two terms with the same stored vector are the same term. -/
theorem C01_encode_injective (s t : Term) (hs : s.size < 65536) (h : encode s = encode t) :
    s = t := by
  have ht : t.size < 65536 := by rw [← encode_length t, ← h, encode_length]; exact hs
  have h1 := C01_read_back s hs
  have h2 := C01_read_back t ht
  rw [h, h2] at h1
  exact (Option.some.inj h1).symm

/-- The recursive position walk used for printing finds the end of each stored sub-term. -/
theorem C01_subterm_end (t : Term) (ht : t.size < 65536) (pre post : List Comp) (fuel : Nat)
    (hf : t.size ≤ fuel) :
    findEnd fuel (pre ++ encode t ++ post) pre.length = some (pre.length + t.size) :=
  findEnd_encode t (fits_of_size t ht) pre post fuel hf

/-- The size bound is needed: a function type whose domain has 65535 components is stored with
offset 0, and taking it apart panics. -/
theorem C01_size_bound_needed :
    ∃ l r : Term, l.size = 65535 ∧ decompose (encode (.pi l r)) = none := by
  refine ⟨chain 32767, .tt, chain_size 32767, ?_⟩
  apply decompose_overflow
  rw [encode_length, chain_size]

example : readTree 5 (encode (.app (.app (.sym (.global 0 1)) (.fvar 0)) (.bvar 3)))
    = some (.app (.app (.sym (.global 0 1)) (.fvar 0)) (.bvar 3)) :=
  C01_read_back (.app (.app (.sym (.global 0 1)) (.fvar 0)) (.bvar 3)) (by decide)

/-! ### C02: the structural check accepts exactly real terms -/

/-- The check succeeds on a vector exactly when the vector is the stored form of some term (all of
whose left children are small enough for a 16-bit offset). -/
theorem C02_validate_iff (cs : List Comp) :
    validate cs = true ↔ ∃ t, Fits t ∧ encode t = cs :=
  ⟨validate_sound cs, fun ⟨t, ht, he⟩ => he ▸ validate_encode t ht⟩

/-- Consequence for vectors below the size limit: accepted means readable, and reading then
re-storing gives back the same vector. -/
theorem C02_validate_read (cs : List Comp) (h : validate cs = true) :
    ∃ t, readTree cs.length cs = some t ∧ encode t = cs := by
  obtain ⟨t, ht, he⟩ := validate_sound cs h
  refine ⟨t, ?_, he⟩
  rw [← he]
  exact readTree_encode t ht _ (by rw [encode_length]; omega)

example : validate [.mark .app 2, .atom (.fvar 0), .atom (.fvar 1)] = true :=
  (C02_validate_iff _).2 ⟨.app (.fvar 0) (.fvar 1), by simp [Fits, Term.size], rfl⟩

example : validate [.mark .app 1, .atom (.fvar 0), .atom (.fvar 1)] = false := by
  simp [validate]

end Acorn
