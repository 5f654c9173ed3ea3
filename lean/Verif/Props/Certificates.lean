/-
C25: the certificate worklist loses and duplicates nothing, and neither do certificate files.
-/
import Verif.Spec.Certificates
import Verif.Lemmas.Certificates
namespace Acorn
open Spec

theorem mem_unusedCerts {store : List Cert} {removals : List (String × Nat)} {c : Cert} {i : Nat} :
    (c, i) ∈ unusedCerts store removals ↔ IsUnused store removals i c := by
  simp [unusedCerts, IsUnused, List.mem_filter, List.mem_zipIdx_iff_getElem?]

/-- C25: after any history of removals, looking up a goal lists exactly the indices of the unused
certificates with that goal, each once, in store order. -/
theorem C25_lookup (store : List Cert) (removals : List (String × Nat)) (goal : String) :
    let found := (worklistAfter store removals).getIndexes goal
    found.Pairwise (· < ·) ∧
    ∀ i, i ∈ found ↔ ∃ c, IsUnused store removals i c ∧ c.goal = goal := by
  have h := worklistAfter_ok store removals
  refine ⟨?_, fun i => ?_⟩
  · show ((worklistAfter store removals).getIndexes goal).Pairwise (· < ·)
    rw [h.idx]
    have h1 : (store.zipIdx.map Prod.snd).Pairwise (· < ·) := by
      rw [List.zipIdx_map_snd]
      exact List.pairwise_lt_range'
    exact h1.sublist ((List.filter_sublist.trans List.filter_sublist).map _)
  · rw [h.idx]
    simp only [List.mem_map, List.mem_filter, beq_iff_eq, Prod.exists, exists_eq_right, mem_unusedCerts]

/-- C25: the number of unused certificates is the number of certificates never removed under their own
goal. -/
theorem C25_count (store : List Cert) (removals : List (String × Nat)) :
    (worklistAfter store removals).unused =
      (store.zipIdx.filter fun e => !(removals.contains (e.1.goal, e.2))).length := by
  have h := worklistAfter_ok store removals
  have hp := indexes_perm store removals (List.Perm.refl _)
  have := hp.length_eq
  rw [List.length_map] at this
  rw [unusedCerts] at this
  rw [← this, Worklist.unused, List.length_flatMap]
  congr 1
  simp only [AMap.keys, List.map_map]
  refine List.map_congr_left fun e he => ?_
  have hg : (worklistAfter store removals).indexes.get? e.1 = some e.2 := AMap.get?_eq_some.mpr he
  simp [Worklist.getIndexes, hg]
where
  indexes_perm (store : List Cert) (removals : List (String × Nat)) {order : List String}
      (ho : order.Perm (worklistAfter store removals).indexes.keys) :
      (order.flatMap (worklistAfter store removals).getIndexes).Perm
        ((unusedCerts store removals).map Prod.snd) := by
    have h := worklistAfter_ok store removals
    have hn : order.Nodup := ho.nodup_iff.mpr (AMap.keys_nodup _)
    refine (List.perm_ext_iff_of_nodup ?_ (nodup_unused store removals)).mpr ?_
    · rw [List.Nodup, List.pairwise_flatMap]
      refine ⟨fun g _ => ?_, ?_⟩
      · rw [h.idx]
        exact (nodup_unused store removals).sublist (List.filter_sublist.map _)
      · refine hn.imp fun {a b} hab => ?_
        intro i hi j hj hij
        subst hij
        rw [h.idx] at hi hj
        simp only [List.mem_map, List.mem_filter, beq_iff_eq, Prod.exists, exists_eq_right] at hi hj
        obtain ⟨c, hc, rfl⟩ := hi
        obtain ⟨d, hd, rfl⟩ := hj
        have h1 := (mem_unusedCerts.mp hc).1
        have h2 := (mem_unusedCerts.mp hd).1
        rw [h1] at h2
        cases h2
        exact hab rfl
    · intro i
      simp only [List.mem_flatMap]
      constructor
      · rintro ⟨g, _, hi⟩
        rw [h.idx] at hi
        simp only [List.mem_map, List.mem_filter] at hi ⊢
        obtain ⟨e, ⟨he, _⟩, rfl⟩ := hi
        exact ⟨e, he, rfl⟩
      · intro hi
        obtain ⟨⟨c, i'⟩, he, rfl⟩ := List.mem_map.mp hi
        have hmem : i' ∈ (worklistAfter store removals).getIndexes c.goal := by
          rw [h.idx]
          exact List.mem_map.mpr ⟨(c, i'), by simpa using he, rfl⟩
        refine ⟨c.goal, ?_, hmem⟩
        rw [ho.mem_iff, AMap.mem_keys]
        cases hg : (worklistAfter store removals).indexes.get? c.goal with
        | none => rw [Worklist.getIndexes, hg] at hmem; simp at hmem
        | some v => exact ⟨v, rfl⟩

/-- C25: iterating over the unused certificates, in whatever order the goals come, yields each
certificate that was never removed under its own goal exactly once, and appending them to a store adds
exactly these. -/
theorem C25_unused (store : List Cert) (removals : List (String × Nat)) {order : List String}
    (ho : order.Perm (worklistAfter store removals).indexes.keys) :
    ((worklistAfter store removals).iterUnused order).Perm ((unusedCerts store removals).map Prod.fst) ∧
    ∀ certs, (appendUnused certs (worklistAfter store removals) order) =
      certs ++ (worklistAfter store removals).iterUnused order := by
  have h := worklistAfter_ok store removals
  constructor
  · have hp := (C25_count.indexes_perm store removals ho).filterMap fun i => store[i]?
    have e1 : (worklistAfter store removals).iterUnused order =
        (order.flatMap (worklistAfter store removals).getIndexes).filterMap fun i => store[i]? := by
      rw [Worklist.iterUnused, h.store, List.filterMap_flatMap]
    have e2 : (((unusedCerts store removals).map Prod.snd).filterMap fun i => store[i]?) =
        (unusedCerts store removals).map Prod.fst := by
      rw [List.filterMap_map]
      have : ∀ l : List (Cert × Nat), (∀ e ∈ l, store[e.2]? = some e.1) →
          l.filterMap ((fun i => store[i]?) ∘ Prod.snd) = l.map Prod.fst := by
        intro l
        induction l with
        | nil => simp
        | cons e l ih =>
          intro hl
          rw [List.filterMap_cons, Function.comp, hl e (by simp), List.map_cons, ih fun x hx => hl x (by simp [hx])]
      exact this _ fun e he => (mem_unusedCerts (c := e.1) (i := e.2).mp he).1
    rw [e1, ← e2]
    exact hp
  · intro certs
    unfold appendUnused
    generalize (worklistAfter store removals).iterUnused order = l
    induction l generalizing certs with
    | nil => simp
    | cons c l ih => rw [List.foldl_cons, ih]; simp

/-- C25: saving a store and loading it again gives the same certificates in the same order, for any
encoding of certificates that can be decoded, stays on one line and is not blank. -/
theorem C25_save_load (encode : Cert → List Char) (decode : List Char → Option Cert) (certs : List Cert)
    (hdec : ∀ c ∈ certs, decode (encode c) = some c)
    (hline : ∀ c ∈ certs, ∀ x ∈ encode c, x ≠ '\n' ∧ x ≠ '\r')
    (hblank : ∀ c ∈ certs, ∃ x ∈ encode c, Text.isWhitespace x = false) :
    loadStore decode (saveStore encode certs) = some certs := by
  rw [loadStore, lines_saveStore _ _ hline]
  induction certs with
  | nil => rfl
  | cons c cs ih =>
    rw [List.map_cons, loadLines, if_neg (by rw [trim_nonempty (hblank c (by simp))]; simp), hdec c (by simp),
      Option.bind_some, ih (fun d hd => hdec d (by simp [hd])) (fun d hd => hline d (by simp [hd]))
      fun d hd => hblank d (by simp [hd])]
    rfl

/-- C25: loading decodes exactly the lines that are not blank, in order, and fails when one of them
cannot be decoded. -/
theorem C25_load (decode : List Char → Option Cert) (file : List Char) :
    loadStore decode file =
      ((Text.lines file).filter fun l => l.any fun x => !Text.isWhitespace x).mapM decode := by
  rw [loadStore]
  generalize Text.lines file = ls
  induction ls with
  | nil => rfl
  | cons l ls ih =>
    rw [loadLines]
    by_cases hb : ∃ x ∈ l, Text.isWhitespace x = false
    · have h1 : (l.any fun x => !Text.isWhitespace x) = true := by
        obtain ⟨x, hx, hx'⟩ := hb
        exact List.any_eq_true.2 ⟨x, hx, by simp [hx']⟩
      rw [if_neg (by rw [trim_nonempty hb]; simp), ih, List.filter_cons, if_pos h1, List.mapM_cons]
      cases decode l with
      | none => rfl
      | some c =>
        show Option.map _ _ = Option.bind _ _
        cases List.mapM decode (ls.filter fun l => l.any fun x => !Text.isWhitespace x) <;> rfl
    · have hw : ∀ x ∈ l, Text.isWhitespace x = true := by
        intro x hx
        cases e : Text.isWhitespace x with
        | true => rfl
        | false => exact absurd ⟨x, hx, e⟩ hb
      have h1 : ¬ (l.any fun x => !Text.isWhitespace x) = true := by
        intro h
        obtain ⟨x, hx, hx'⟩ := List.any_eq_true.1 h
        rw [hw x hx] at hx'; cases hx'
      have ht : Text.trim l = [] := by
        have : l.dropWhile Text.isWhitespace = [] := by
          clear h1 hb ih
          induction l with
          | nil => rfl
          | cons x l ih =>
            rw [List.dropWhile_cons, if_pos (hw x (by simp))]
            exact ih fun y hy => hw y (by simp [hy])
        simp [Text.trim, Text.trimEnd, Text.trimStart, this]
      rw [if_pos (by rw [ht]; rfl), ih, List.filter_cons, if_neg h1]

/-! ### Concrete case -/

namespace CertDemo

def c (g : String) : Cert := ⟨g, []⟩
def store : List Cert := [c "a", c "b", c "a", c "c"]
/-- One proper removal, one under the wrong goal, one out of range. -/
def removals : List (String × Nat) := [("a", 0), ("b", 3), ("a", 9)]

example : (worklistAfter store removals).getIndexes "a" = [2] := by decide +kernel
example : (worklistAfter store removals).unused = 3 := by decide +kernel
example : unusedCerts store removals = [(c "b", 1), (c "a", 2), (c "c", 3)] := by decide +kernel

def encode (c : Cert) : List Char := '{' :: c.goal.toList
def decode : List Char → Option Cert
  | '{' :: cs => some ⟨String.ofList cs, []⟩
  | _ => none

example : (∀ c ∈ store, decode (encode c) = some c) ∧ (∀ c ∈ store, ∀ x ∈ encode c, x ≠ '\n' ∧ x ≠ '\r') ∧
    (∀ c ∈ store, ∃ x ∈ encode c, Text.isWhitespace x = false) := by decide +kernel
example : saveStore encode store = "{a\n{b\n{a\n{c\n".toList := by decide +kernel
example : loadStore decode "{a\r\n\n  \n{b".toList = some [c "a", c "b"] := by decide +kernel

end CertDemo

end Acorn
