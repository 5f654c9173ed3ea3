import Verif.Model.FlatTerm
namespace Acorn
namespace Flat

theorem encode_length (t : Term) : (encode t).length = t.size := by
  induction t with
  | atom a => rfl
  | app f a ihf iha => simp [encode, mkNode, Term.size, ihf, iha]; omega
  | bind b ty body ih1 ih2 => simp [encode, mkNode, Term.size, ih1, ih2]; omega

theorem size_pos (t : Term) : 0 < t.size := by cases t <;> simp [Term.size] <;> omega

/-- Every left child is small enough for its offset to fit in 16 bits. -/
def Fits : Term → Prop
  | .atom _ => True
  | .app f a => f.size + 1 < 65536 ∧ Fits f ∧ Fits a
  | .bind _ ty body => ty.size + 1 < 65536 ∧ Fits ty ∧ Fits body

theorem fits_of_size (t : Term) (h : t.size < 65536) : Fits t := by
  induction t with
  | atom a => trivial
  | app f a ihf iha =>
    have := size_pos a
    simp only [Term.size] at h
    exact ⟨by omega, ihf (by omega), iha (by omega)⟩
  | bind b f a ihf iha =>
    have := size_pos a
    simp only [Term.size] at h
    exact ⟨by omega, ihf (by omega), iha (by omega)⟩

theorem ofNat_toNat {n : Nat} (h : n < 65536) : (UInt16.ofNat n).toNat = n := by
  simp [UInt16.toNat_ofNat']; omega

theorem decompose_mkNode (k : Mark) (l r : List Comp) (h : 1 + l.length < 65536) (hl : l ≠ []) :
    decompose (mkNode k l r) = some (.node k l r) := by
  obtain ⟨x, xs, rfl⟩ : ∃ x xs, l = x :: xs := by
    cases l with
    | nil => exact absurd rfl hl
    | cons x xs => exact ⟨x, xs, rfl⟩
  simp only [mkNode]
  have hn := ofNat_toNat h
  simp only [List.cons_append, decompose]
  rw [hn, if_pos]
  · congr 2
    · rw [show 1 + (x :: xs).length = (x :: xs).length + 1 by omega, List.take_succ_cons,
        ← List.cons_append, List.take_left]
      rfl
    · rw [show 1 + (x :: xs).length = (x :: xs).length + 1 by omega, List.drop_succ_cons,
        ← List.cons_append, List.drop_left]
  · simp; omega

theorem encode_ne_nil (t : Term) : encode t ≠ [] := by
  intro h
  have := encode_length t
  rw [h] at this
  have := size_pos t
  simp at *; omega

theorem readTree_encode (t : Term) (ht : Fits t) :
    ∀ fuel, t.size ≤ fuel → readTree fuel (encode t) = some t := by
  induction t with
  | atom a =>
    intro fuel h
    cases fuel with
    | zero => simp [Term.size] at h
    | succ n => rfl
  | app f a ihf iha =>
    intro fuel h
    cases fuel with
    | zero => simp [Term.size] at h
    | succ n =>
      simp only [Term.size] at h
      have := size_pos f; have := size_pos a
      simp only [encode, readTree]
      rw [decompose_mkNode _ _ _ (by rw [encode_length]; have := ht.1; omega) (encode_ne_nil f)]
      simp [ihf ht.2.1 n (by omega), iha ht.2.2 n (by omega)]
  | bind b f a ihf iha =>
    intro fuel h
    cases fuel with
    | zero => simp [Term.size] at h
    | succ n =>
      simp only [Term.size] at h
      have := size_pos f; have := size_pos a
      simp only [encode, readTree]
      rw [decompose_mkNode _ _ _ (by rw [encode_length]; have := ht.1; omega) (encode_ne_nil f)]
      simp [ihf ht.2.1 n (by omega), iha ht.2.2 n (by omega)]

theorem checkSub_encode (t : Term) (ht : Fits t) (pre post : List Comp) :
    checkSub (pre ++ encode t ++ post) pre.length = some (pre.length + t.size) := by
  induction t generalizing pre post with
  | atom a =>
    rw [checkSub]
    simp [encode, mkAtom, Term.size]
  | app f a ihf iha =>
    rw [checkSub]
    have h1 := ihf ht.2.1 (pre ++ [.mark .app (UInt16.ofNat (1 + (encode f).length))])
      (encode a ++ post)
    have h2 := iha ht.2.2 (pre ++ [.mark .app (UInt16.ofNat (1 + (encode f).length))] ++ encode f)
      post
    have hoff := ofNat_toNat (n := 1 + (encode f).length) (by rw [encode_length]; have := ht.1; omega)
    have lf := encode_length f
    have la := encode_length a
    have := size_pos f
    have := size_pos a
    simp only [List.append_assoc, List.length_append, List.length_cons, List.length_nil,
      List.cons_append, List.nil_append] at h1 h2
    simp only [encode, mkNode, List.append_assoc, List.cons_append, List.length_append,
      List.length_cons, Term.size]
    rw [dif_pos (by omega)]
    simp only [Nat.le_refl, List.getElem_append_right, Nat.sub_self, List.getElem_cons_zero, hoff]
    rw [if_neg (by omega), h1]
    simp only
    rw [if_neg (by omega), if_pos (by omega)]
    rw [show pre.length + (1 + (encode f).length) = pre.length + ((encode f).length + 1) by omega,
      h2]
    congr 1; omega
  | bind b f a ihf iha =>
    rw [checkSub]
    have h1 := ihf ht.2.1 (pre ++ [.mark (.bind b) (UInt16.ofNat (1 + (encode f).length))])
      (encode a ++ post)
    have h2 := iha ht.2.2
      (pre ++ [.mark (.bind b) (UInt16.ofNat (1 + (encode f).length))] ++ encode f) post
    have hoff := ofNat_toNat (n := 1 + (encode f).length) (by rw [encode_length]; have := ht.1; omega)
    have lf := encode_length f
    have la := encode_length a
    have := size_pos f
    have := size_pos a
    simp only [List.append_assoc, List.length_append, List.length_cons, List.length_nil,
      List.cons_append, List.nil_append] at h1 h2
    simp only [encode, mkNode, List.append_assoc, List.cons_append, List.length_append,
      List.length_cons, Term.size]
    rw [dif_pos (by omega)]
    simp only [Nat.le_refl, List.getElem_append_right, Nat.sub_self, List.getElem_cons_zero, hoff]
    rw [if_neg (by omega), h1]
    simp only
    rw [if_neg (by omega), if_pos (by omega)]
    rw [show pre.length + (1 + (encode f).length) = pre.length + ((encode f).length + 1) by omega,
      h2]
    congr 1; omega

/-- What `checkSub` accepts is the stored form of a term. -/
theorem checkSub_sound (cs : List Comp) (start e : Nat) (h : checkSub cs start = some e) :
    ∃ t, Fits t ∧ e = start + t.size ∧ e ≤ cs.length ∧ (cs.drop start).take t.size = encode t := by
  induction start using checkSub.induct cs generalizing e with
  | case1 start hlt a ha =>
    rw [checkSub, dif_pos hlt, ha] at h
    cases h
    refine ⟨.atom a, trivial, rfl, hlt, ?_⟩
    simp only [Term.size, encode, mkAtom]
    rw [List.drop_eq_getElem_cons hlt, ha]; rfl
  | case2 start hlt k off hm rs hrs =>
    rw [checkSub, dif_pos hlt, hm] at h
    simp only at h
    rw [if_pos hrs] at h; cases h
  | case3 start hlt k off hm rs hrs hnone ih =>
    rw [checkSub, dif_pos hlt, hm] at h
    simp only at h
    rw [if_neg hrs, hnone] at h; cases h
  | case4 start hlt k off hm rs hrs le hsome hne ih =>
    rw [checkSub, dif_pos hlt, hm] at h
    simp only at h
    rw [if_neg hrs, hsome] at h
    simp only at h
    rw [if_pos hne] at h; cases h
  | case5 start hlt k off hm rs hrs le hsome hne hst ih1 ih2 =>
    rw [checkSub, dif_pos hlt, hm] at h
    simp only at h
    rw [if_neg hrs, hsome] at h
    simp only at h
    rw [if_neg hne, if_pos hst] at h
    obtain ⟨l, hfl, hle, hlen, hencl⟩ := ih1 le hsome
    obtain ⟨r, hfr, hre, hrlen, hencr⟩ := ih2 e h
    have hrs' : rs = start + off.toNat := rfl
    have hsz : l.size + 1 = off.toNat := by omega
    have hoff : off.toNat < 65536 := off.toNat_lt
    have henc : (cs.drop start).take (1 + l.size + r.size) = mkNode k (encode l) (encode r) := by
      rw [List.drop_eq_getElem_cons hlt, hm, show 1 + l.size + r.size = (l.size + r.size) + 1 by omega,
        List.take_succ_cons, mkNode, encode_length, List.take_add, hencl, List.drop_drop,
        show start + 1 + l.size = rs by omega, hencr]
      congr 2
      rw [show 1 + l.size = off.toNat by omega]
      simp
    cases k with
    | app =>
      exact ⟨.app l r, ⟨by omega, hfl, hfr⟩, by simp only [Term.size]; omega, hrlen, henc⟩
    | bind b =>
      exact ⟨.bind b l r, ⟨by omega, hfl, hfr⟩, by simp only [Term.size]; omega, hrlen, henc⟩
  | case6 start hlt k off hm rs hrs le hsome hne hst ih =>
    rw [checkSub, dif_pos hlt, hm] at h
    simp only at h
    rw [if_neg hrs, hsome] at h
    simp only at h
    rw [if_neg hne, if_neg hst] at h; cases h
  | case7 start hlt =>
    rw [checkSub, dif_neg hlt] at h; cases h

theorem validate_encode (t : Term) (ht : Fits t) : validate (encode t) = true := by
  have h := checkSub_encode t ht [] []
  simp only [List.nil_append, List.append_nil, List.length_nil, Nat.zero_add] at h
  have hlen := encode_length t
  simp only [validate, h, hlen, beq_self_eq_true, Bool.and_true]
  cases t with
  | atom a => simp [Term.size]
  | app f a =>
    have := size_pos f
    have := size_pos a
    have := ht.1
    simp [encode, mkNode, Term.size, encode_length]; omega
  | bind b f a =>
    have := size_pos f
    have := size_pos a
    have := ht.1
    simp [encode, mkNode, Term.size, encode_length]; omega

theorem validate_sound (cs : List Comp) (h : validate cs = true) : ∃ t, Fits t ∧ encode t = cs := by
  simp only [validate, Bool.and_eq_true] at h
  obtain ⟨-, h⟩ := h
  split at h
  · rename_i e he
    obtain ⟨t, ht, h1, h2, h3⟩ := checkSub_sound cs 0 e he
    refine ⟨t, ht, ?_⟩
    simp at h
    rw [← h3, List.drop_zero]
    have : t.size = cs.length := by omega
    rw [this, List.take_length]
  · cases h

theorem findEnd_encode (t : Term) (ht : Fits t) :
    ∀ (pre post : List Comp) (fuel : Nat), t.size ≤ fuel →
    findEnd fuel (pre ++ encode t ++ post) pre.length = some (pre.length + t.size) := by
  have key : ∀ (k : Mark) (l r : Term), l.size + 1 < 65536 →
      (∀ (pre post : List Comp) (fuel : Nat), r.size ≤ fuel →
        findEnd fuel (pre ++ encode r ++ post) pre.length = some (pre.length + r.size)) →
      ∀ (pre post : List Comp) (fuel : Nat), 1 + l.size + r.size ≤ fuel →
      findEnd fuel (pre ++ mkNode k (encode l) (encode r) ++ post) pre.length
        = some (pre.length + (1 + l.size + r.size)) := by
    intro k l r hl ih pre post fuel hfuel
    cases fuel with
    | zero => have := size_pos r; omega
    | succ n =>
      have hoff := ofNat_toNat (n := 1 + (encode l).length) (by rw [encode_length]; omega)
      have h2 := ih (pre ++ [.mark k (UInt16.ofNat (1 + (encode l).length))] ++ encode l) post n
        (by omega)
      simp only [findEnd]
      rw [show (pre ++ mkNode k (encode l) (encode r) ++ post)[pre.length]?
        = some (.mark k (UInt16.ofNat (1 + (encode l).length))) by simp [mkNode]]
      simp only [hoff]
      simp only [List.append_assoc, List.length_append, List.length_cons,
        List.cons_append, List.nil_append] at h2
      simp only [mkNode, List.append_assoc, List.cons_append]
      rw [show pre.length + (1 + (encode l).length) = pre.length + ((encode l).length + 1) by omega]
      rw [h2, encode_length]
      congr 1; omega
  induction t with
  | atom a =>
    intro pre post fuel h
    cases fuel with
    | zero => simp [Term.size] at h
    | succ n => simp [findEnd, encode, mkAtom, Term.size]
  | app l r ihl ihr => exact key .app l r ht.1 (ihr ht.2.2)
  | bind b l r ihl ihr => exact key (.bind b) l r ht.1 (ihr ht.2.2)

/-- A chain of `n` applications. -/
def chain : Nat → Term
  | 0 => .tt
  | n + 1 => .app (chain n) .tt

theorem chain_size (n : Nat) : (chain n).size = 2 * n + 1 := by
  induction n with
  | zero => rfl
  | succ n ih => simp only [chain, Term.size, ih]; omega

theorem decompose_overflow (k : Mark) (l r : List Comp) (h : l.length = 65535) :
    decompose (mkNode k l r) = none := by
  have hz : (UInt16.ofNat (1 + l.length)) = 0 := by rw [h]; rfl
  cases l with
  | nil => simp at h
  | cons x xs =>
    rw [mkNode, hz]
    simp [decompose]

end Flat
end Acorn
