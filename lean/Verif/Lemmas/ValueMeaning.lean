/-
How the meaning of the elaborator's values behaves under the operations that move them between stacks.
-/
import Verif.Spec.ValueMeaning
import Verif.Spec.ValueNames
namespace Acorn
namespace Elab

open Spec Classical

universe u

variable {F : Frame.{u}} {C : String → List F.T → F.D}

theorem pick_congr {P Q : List F.D → Prop} {f g : List F.D → F.D} {a b : F.D}
    (hP : ∀ x, P x ↔ Q x) (hf : ∀ x, P x → f x = g x) (hab : a = b) :
    F.pick P f a = F.pick Q g b := by
  have e : P = Q := funext fun x => propext (hP x)
  subst e
  unfold Frame.pick
  by_cases h : ∃ x, P x
  · rw [dif_pos h, dif_pos h]
    exact hf _ (choose_spec h)
  · rw [dif_neg h, dif_neg h]
    exact hab

theorem ofProp_congr {p q : Prop} (h : p ↔ q) : F.ofProp p = F.ofProp q := by rw [propext h]

theorem ofProp_tt {p : Prop} : F.ofProp p = F.tt ↔ p := by
  unfold Frame.ofProp
  by_cases h : p
  · simp [h]
  · simp [h, F.tt_ne_ff.symm]

theorem mem_ofProp (p : Prop) : F.mem (F.ofProp p) F.bool := by
  refine (F.mem_bool _).2 ?_
  unfold Frame.ofProp
  by_cases h : p
  · exact .inl (if_pos h)
  · exact .inr (if_neg h)

theorem lamN_congr : ∀ {ts : List F.T} {k k' : List F.D → F.D},
    (∀ xs, F.Fits xs ts → k xs = k' xs) → F.lamN ts k = F.lamN ts k'
  | [], _, _, h => h [] trivial
  | t :: ts, k, k', h => by
    refine F.lam_congr t _ _ fun x hx => ?_
    exact lamN_congr fun xs hxs => h (x :: xs) ⟨hx, hxs⟩

theorem appN_append (f : F.D) (xs ys : List F.D) : F.appN f (xs ++ ys) = F.appN (F.appN f xs) ys :=
  List.foldl_append

theorem appN_lamN : ∀ {ts : List F.T} {xs : List F.D} {k : List F.D → F.D},
    F.Fits xs ts → F.appN (F.lamN ts k) xs = k xs
  | [], [], _, _ => rfl
  | [], _ :: _, _, h => h.elim
  | _ :: _, [], _, h => h.elim
  | t :: ts, x :: xs, k, h => by
    show F.appN (F.app (F.lam t fun x => F.lamN ts fun xs => k (x :: xs)) x) xs = _
    rw [F.beta t _ x h.1]
    exact appN_lamN h.2

theorem mem_appN : ∀ {ts : List F.T} {r : F.T} {xs : List F.D} {f : F.D},
    F.mem f (F.fnN ts r) → F.Fits xs ts → F.mem (F.appN f xs) r
  | [], _, [], _, hf, _ => hf
  | [], _, _ :: _, _, _, h => h.elim
  | _ :: _, _, [], _, _, h => h.elim
  | t :: ts, r, x :: xs, f, hf, h => by
    show F.mem (F.appN (F.app f x) xs) r
    exact mem_appN (F.mem_app t (F.fnN ts r) f x hf h.1) h.2

theorem mem_lamN : ∀ {ts : List F.T} {r : F.T} {k : List F.D → F.D},
    (∀ xs, F.Fits xs ts → F.mem (k xs) r) → F.mem (F.lamN ts k) (F.fnN ts r)
  | [], _, _, h => h [] trivial
  | t :: ts, r, k, h => F.mem_lam t (F.fnN ts r) _ fun x hx =>
      mem_lamN fun xs hxs => h (x :: xs) ⟨hx, hxs⟩

theorem extN : ∀ {ts : List F.T} {r : F.T} {f g : F.D}, F.mem f (F.fnN ts r) → F.mem g (F.fnN ts r) →
    (∀ xs, F.Fits xs ts → F.appN f xs = F.appN g xs) → f = g
  | [], _, _, _, _, _, h => h [] trivial
  | t :: ts, r, f, g, hf, hg, h => F.ext t (F.fnN ts r) f g hf hg fun x hx =>
      extN (F.mem_app _ _ _ _ hf hx) (F.mem_app _ _ _ _ hg hx) fun xs hxs => h (x :: xs) ⟨hx, hxs⟩

theorem Fits.length : ∀ {xs : List F.D} {ts : List F.T}, F.Fits xs ts → xs.length = ts.length
  | [], [], _ => rfl
  | _ :: _, _ :: _, h => congrArg (· + 1) (Fits.length h.2)
  | [], _ :: _, h => h.elim
  | _ :: _, [], h => h.elim

theorem Fits.append : ∀ {xs ys : List F.D} {ts us : List F.T}, F.Fits xs ts → F.Fits ys us →
    F.Fits (xs ++ ys) (ts ++ us)
  | [], _, [], _, _, h => h
  | _ :: _, _, _ :: _, _, h, h' => ⟨h.1, Fits.append h.2 h'⟩
  | [], _, _ :: _, _, h, _ => h.elim
  | _ :: _, _, [], _, h, _ => h.elim

theorem Fits.split : ∀ {ts us : List F.T} {zs : List F.D}, F.Fits zs (ts ++ us) →
    ∃ xs ys, zs = xs ++ ys ∧ F.Fits xs ts ∧ F.Fits ys us
  | [], _, zs, h => ⟨[], zs, rfl, trivial, h⟩
  | _ :: _, _, [], h => h.elim
  | t :: ts, us, z :: zs, h => by
    obtain ⟨xs, ys, rfl, h1, h2⟩ := Fits.split h.2
    exact ⟨z :: xs, ys, rfl, ⟨h.1, h1⟩, h2⟩

theorem fnN_append (ts us : List F.T) (r : F.T) : F.fnN (ts ++ us) r = F.fnN ts (F.fnN us r) := by
  induction ts with
  | nil => rfl
  | cons t ts ih => simp only [List.cons_append, Frame.fnN, ih]

theorem lamN_append : ∀ (ts us : List F.T) (k : List F.D → F.D),
    F.lamN (ts ++ us) k = F.lamN ts fun xs => F.lamN us fun ys => k (xs ++ ys)
  | [], _, _ => rfl
  | t :: ts, us, k => by
    show F.lam t _ = F.lam t _
    congr 1
    funext x
    exact lamN_append ts us _

theorem tys_length (θ : String → F.T) : ∀ ts : List Ty, (F.tys θ ts).length = ts.length
  | [] => rfl
  | _ :: ts => congrArg (· + 1) (tys_length θ ts)

theorem tys_append (θ : String → F.T) : ∀ ts us : List Ty, F.tys θ (ts ++ us) = F.tys θ ts ++ F.tys θ us
  | [], _ => rfl
  | t :: ts, us => congrArg (F.ty θ t :: ·) (tys_append θ ts us)

theorem denAll_length (θ : String → F.T) (env : List F.D) : ∀ vs : List Value,
    (F.denAll C θ env vs).length = vs.length
  | [] => rfl
  | _ :: vs => congrArg (· + 1) (denAll_length θ env vs)

theorem denAll_getD (θ : String → F.T) (env : List F.D) (d : F.D) : ∀ (vs : List Value) (i : Nat)
    (h : i < vs.length), (F.denAll C θ env vs).getD i d = F.den C θ env vs[i]
  | _ :: _, 0, _ => rfl
  | _ :: vs, i + 1, h => denAll_getD θ env d vs i (Nat.lt_of_succ_lt_succ h)

/-! ### Inserting entries in the stack -/

mutual

theorem den_insertStack (θ : String → F.T) (pre extra rest : List F.D) : ∀ v : Value,
    F.den C θ (pre ++ (extra ++ rest)) (v.insertStack pre.length extra.length) = F.den C θ (pre ++ rest) v
  | .var i t => by
    unfold Value.insertStack
    by_cases h : i < pre.length
    · rw [if_pos h]
      simp only [Frame.den, List.getD_eq_getElem?_getD, List.getElem?_append_left h]
    · rw [if_neg h]
      simp only [Frame.den, List.getD_eq_getElem?_getD]
      rw [List.getElem?_append_right (by omega), List.getElem?_append_right (by omega),
        List.getElem?_append_right (by omega)]
      congr 2
      omega
  | .const _ _ _ => rfl
  | .app f as => by
    simp only [Value.insertStack, Frame.den, den_insertStack θ pre extra rest f,
      den_insertStackAll θ pre extra rest as]
  | .tapp f _ _ => by simp only [Value.insertStack, Frame.den, den_insertStack _ pre extra rest f]
  | .lam ts b => by
    simp only [Value.insertStack, Frame.den, List.append_assoc]
    congr 1
    funext xs
    exact den_insertStack θ pre extra (rest ++ xs) b
  | .bin op a b => by
    simp only [Value.insertStack, Frame.den, den_insertStack θ pre extra rest a,
      den_insertStack θ pre extra rest b]
  | .not a => by simp only [Value.insertStack, Frame.den, den_insertStack θ pre extra rest a]
  | .try_ a _ => by simp only [Value.insertStack, Frame.den, den_insertStack θ pre extra rest a]
  | .all ts b => by
    simp only [Value.insertStack, Frame.den, List.append_assoc]
    refine ofProp_congr (forall_congr' fun xs => ?_)
    rw [den_insertStack θ pre extra (rest ++ xs) b]
  | .ex ts b => by
    simp only [Value.insertStack, Frame.den, List.append_assoc]
    refine ofProp_congr (exists_congr fun xs => ?_)
    rw [den_insertStack θ pre extra (rest ++ xs) b]
  | .group a => den_insertStack θ pre extra rest a
  | .bool _ => rfl
  | .ite c a b => by
    simp only [Value.insertStack, Frame.den, den_insertStack θ pre extra rest a,
      den_insertStack θ pre extra rest b, den_insertStack θ pre extra rest c]
  | .match_ s cs => by
    simp only [Value.insertStack, Frame.den, den_insertStack θ pre extra rest s]
    exact den_insertStackCases θ pre extra rest _ cs

theorem den_insertStackAll (θ : String → F.T) (pre extra rest : List F.D) : ∀ vs : List Value,
    F.denAll C θ (pre ++ (extra ++ rest)) (Value.insertStackAll pre.length extra.length vs) =
      F.denAll C θ (pre ++ rest) vs
  | [] => rfl
  | v :: vs => by
    simp only [Value.insertStackAll, Frame.denAll, den_insertStack θ pre extra rest v,
      den_insertStackAll θ pre extra rest vs]

theorem den_insertStackCases (θ : String → F.T) (pre extra rest : List F.D) (d : F.D) :
    ∀ cs : List Case,
    F.denCases C θ (pre ++ (extra ++ rest)) d (Value.insertStackCases pre.length extra.length cs) =
      F.denCases C θ (pre ++ rest) d cs
  | [] => rfl
  | .mk ts p r _ _ :: cs => by
    simp only [Value.insertStackCases, Frame.denCases, List.append_assoc]
    refine pick_congr (fun xs => ?_) (fun xs _ => ?_) ?_
    · rw [den_insertStack θ pre extra (rest ++ xs) p]
    · exact den_insertStack θ pre extra (rest ++ xs) r
    · exact den_insertStackCases θ pre extra rest d cs

end

end Elab
end Acorn
