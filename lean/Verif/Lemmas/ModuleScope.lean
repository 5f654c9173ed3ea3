/-
Values whose constants and type parameters are in scope: what operations do to them, and that nothing else
matters for their meaning.
-/
import Verif.Spec.Environment
import Verif.Lemmas.ValueStatements
import Verif.Lemmas.ValueReplace
import Verif.Lemmas.Generic
import Verif.Lemmas.ValueTypes
namespace Acorn
namespace Elab

open Spec Spec.Modules Classical

universe u

variable {F : Frame.{u}} {C : String → List F.T → F.D} {cn : String → Nat → Prop} {tn : String → Prop}

/-! ### Names of types -/

theorem mem_tysNames {n : String} : ∀ {ts : List Ty}, n ∈ tysNames ts ↔ ∃ t ∈ ts, n ∈ tyNames t
  | [] => by simp [tysNames]
  | t :: ts => by
    simp only [tysNames, List.mem_append, mem_tysNames (ts := ts), List.mem_cons, exists_eq_or_imp]

theorem names_functional (n : String) (as : List Ty) (r : Ty) :
    n ∈ tyNames (Ty.functional as r) ↔ n ∈ tysNames as ∨ n ∈ tyNames r := by
  unfold Ty.functional
  cases as with
  | nil => simp [tysNames]
  | cons a as =>
    cases r <;> simp [tyNames, tysNames, tysNames_append, or_assoc]

mutual

theorem names_toArbitrary (n : String) : ∀ t : Ty, n ∈ tyNames t.toArbitrary ↔ n ∈ tyNames t
  | .bool => Iff.rfl
  | .data d as => by simp only [Ty.toArbitrary, tyNames, namesAll_toArbitrary n as]
  | .fn as r => by
    simp only [Ty.toArbitrary, names_functional, tyNames, List.mem_append, namesAll_toArbitrary n as,
      names_toArbitrary n r]
  | .tvar m => by simp only [Ty.toArbitrary, tyNames]
  | .arb m => Iff.rfl
  | .type0 => Iff.rfl
  | .constraint _ => Iff.rfl

theorem namesAll_toArbitrary (n : String) : ∀ ts : List Ty, n ∈ tysNames (Ty.toArbitraryAll ts) ↔ n ∈ tysNames ts
  | [] => Iff.rfl
  | t :: ts => by
    simp only [Ty.toArbitraryAll, tysNames, List.mem_append, names_toArbitrary n t, namesAll_toArbitrary n ts]

end

theorem toArbitraryAll_length : ∀ ts : List Ty, (Ty.toArbitraryAll ts).length = ts.length
  | [] => rfl
  | _ :: ts => by simp only [Ty.toArbitraryAll, List.length_cons, toArbitraryAll_length ts]

theorem genericizeAll_length (params : List String) : ∀ ts : List Ty, (Ty.genericizeAll params ts).length = ts.length
  | [] => rfl
  | _ :: ts => by simp only [Ty.genericizeAll, List.length_cons, genericizeAll_length params ts]

/-! ### What being in scope gives -/

mutual

theorem Within.bound : ∀ {v : Value}, Within cn tn v → boundNames v = []
  | .var _ _, _ => rfl
  | .const _ _ _, _ => rfl
  | .app f as, h => by simp only [boundNames, Within.bound h.1, WithinAll.bound h.2, List.append_nil]
  | .tapp _ _ _, h => h.elim
  | .lam ts b, h => by simp only [boundNames, Within.bound h.2]
  | .bin _ a b, h => by simp only [boundNames, Within.bound h.1, Within.bound h.2, List.append_nil]
  | .not a, h => by simp only [boundNames]; exact Within.bound (v := a) h
  | .try_ a t, h => by simp only [boundNames, Within.bound h.1]
  | .all ts b, h => by simp only [boundNames, Within.bound h.2]
  | .ex ts b, h => by simp only [boundNames, Within.bound h.2]
  | .group a, h => by simp only [boundNames]; exact Within.bound (v := a) h
  | .bool _, _ => rfl
  | .ite c a b, h => by
    simp only [boundNames, Within.bound h.1, Within.bound h.2.1, Within.bound h.2.2, List.append_nil]
  | .match_ s cs, h => by simp only [boundNames, Within.bound h.1, WithinCases.bound h.2, List.append_nil]

theorem WithinAll.bound : ∀ {vs : List Value}, WithinAll cn tn vs → boundNamesAll vs = []
  | [], _ => rfl
  | v :: vs, h => by simp only [boundNamesAll, Within.bound h.1, WithinAll.bound h.2, List.append_nil]

theorem WithinCases.bound : ∀ {cs : List Case}, WithinCases cn tn cs → boundNamesCases cs = []
  | [], _ => rfl
  | .mk ts p r _ _ :: cs, h => by
    simp only [boundNamesCases, Within.bound h.2.1, Within.bound h.2.2.1, WithinCases.bound h.2.2.2, List.append_nil]

end

mutual

theorem Within.mono {cn' : String → Nat → Prop} {tn' : String → Prop} (hc : ∀ n k, cn n k → cn' n k) (ht : ∀ n, tn n → tn' n) : ∀ {v : Value},
    Within cn tn v → Within cn' tn' v
  | .var _ _, h => fun n hn => ht n (h n hn)
  | .const _ _ _, h => ⟨hc _ _ h.1, fun n hn => ht n (h.2.1 n hn), fun n hn => ht n (h.2.2 n hn)⟩
  | .app _ _, h => ⟨Within.mono hc ht h.1, WithinAll.mono hc ht h.2⟩
  | .tapp _ _ _, h => h.elim
  | .lam _ _, h => ⟨fun n hn => ht n (h.1 n hn), Within.mono hc ht h.2⟩
  | .bin _ _ _, h => ⟨Within.mono hc ht h.1, Within.mono hc ht h.2⟩
  | .not a, h => Within.mono (v := a) hc ht h
  | .try_ _ _, h => ⟨Within.mono hc ht h.1, fun n hn => ht n (h.2 n hn)⟩
  | .all _ _, h => ⟨fun n hn => ht n (h.1 n hn), Within.mono hc ht h.2⟩
  | .ex _ _, h => ⟨fun n hn => ht n (h.1 n hn), Within.mono hc ht h.2⟩
  | .group a, h => Within.mono (v := a) hc ht h
  | .bool _, _ => trivial
  | .ite _ _ _, h => ⟨Within.mono hc ht h.1, Within.mono hc ht h.2.1, Within.mono hc ht h.2.2⟩
  | .match_ _ _, h => ⟨Within.mono hc ht h.1, WithinCases.mono hc ht h.2⟩

theorem WithinAll.mono {cn' : String → Nat → Prop} {tn' : String → Prop} (hc : ∀ n k, cn n k → cn' n k) (ht : ∀ n, tn n → tn' n) :
    ∀ {vs : List Value}, WithinAll cn tn vs → WithinAll cn' tn' vs
  | [], _ => trivial
  | _ :: _, h => ⟨Within.mono hc ht h.1, WithinAll.mono hc ht h.2⟩

theorem WithinCases.mono {cn' : String → Nat → Prop} {tn' : String → Prop} (hc : ∀ n k, cn n k → cn' n k) (ht : ∀ n, tn n → tn' n) :
    ∀ {cs : List Case}, WithinCases cn tn cs → WithinCases cn' tn' cs
  | [], _ => trivial
  | .mk _ _ _ _ _ :: _, h => ⟨fun n hn => ht n (h.1 n hn), Within.mono hc ht h.2.1, Within.mono hc ht h.2.2.1,
      WithinCases.mono hc ht h.2.2.2⟩

end

mutual

theorem Within.names : ∀ {v : Value}, Within cn tn v → ∀ n ∈ typeNames v, tn n
  | .var _ _, h, n, hn => h n hn
  | .const _ _ _, h, n, hn => by
    simp only [typeNames, List.mem_append] at hn
    exact hn.elim (h.2.1 n) (h.2.2 n)
  | .app f as, h, n, hn => by
    simp only [typeNames, List.mem_append] at hn
    exact hn.elim (Within.names h.1 n) (WithinAll.names h.2 n)
  | .tapp _ _ _, h, _, _ => h.elim
  | .lam ts b, h, n, hn => by
    simp only [typeNames, List.mem_append] at hn
    exact hn.elim (h.1 n) (Within.names h.2 n)
  | .bin _ a b, h, n, hn => by
    simp only [typeNames, List.mem_append] at hn
    exact hn.elim (Within.names h.1 n) (Within.names h.2 n)
  | .not a, h, n, hn => Within.names (v := a) h n hn
  | .try_ a t, h, n, hn => by
    simp only [typeNames, List.mem_append] at hn
    exact hn.elim (Within.names h.1 n) (h.2 n)
  | .all ts b, h, n, hn => by
    simp only [typeNames, List.mem_append] at hn
    exact hn.elim (h.1 n) (Within.names h.2 n)
  | .ex ts b, h, n, hn => by
    simp only [typeNames, List.mem_append] at hn
    exact hn.elim (h.1 n) (Within.names h.2 n)
  | .group a, h, n, hn => Within.names (v := a) h n hn
  | .bool _, _, n, hn => by simp [typeNames] at hn
  | .ite c a b, h, n, hn => by
    simp only [typeNames, List.mem_append] at hn
    exact hn.elim (Within.names h.1 n) fun hn => hn.elim (Within.names h.2.1 n) (Within.names h.2.2 n)
  | .match_ s cs, h, n, hn => by
    simp only [typeNames, List.mem_append] at hn
    exact hn.elim (Within.names h.1 n) (WithinCases.names h.2 n)

theorem WithinAll.names : ∀ {vs : List Value}, WithinAll cn tn vs → ∀ n ∈ typeNamesAll vs, tn n
  | [], _, _, hn => by simp [typeNamesAll] at hn
  | v :: vs, h, n, hn => by
    simp only [typeNamesAll, List.mem_append] at hn
    exact hn.elim (Within.names h.1 n) (WithinAll.names h.2 n)

theorem WithinCases.names : ∀ {cs : List Case}, WithinCases cn tn cs → ∀ n ∈ typeNamesCases cs, tn n
  | [], _, _, hn => by simp [typeNamesCases] at hn
  | .mk ts p r _ _ :: cs, h, n, hn => by
    simp only [typeNamesCases, List.mem_append] at hn
    exact hn.elim (h.1 n) fun hn => hn.elim (Within.names h.2.1 n) fun hn => hn.elim (Within.names h.2.2.1 n)
      (WithinCases.names h.2.2.2 n)

end

mutual

theorem Within.consts : ∀ {v : Value}, Within cn tn v → ∀ p ∈ v.constants, cn p.1 p.2.length
  | .var _ _, _, p, hp => by simp [Value.constants] at hp
  | .const _ _ _, h, p, hp => by
    simp only [Value.constants, List.mem_singleton] at hp
    subst hp
    exact h.1
  | .app f as, h, p, hp => by
    simp only [Value.constants, List.mem_append] at hp
    exact hp.elim (Within.consts h.1 p) (WithinAll.consts h.2 p)
  | .tapp _ _ _, h, _, _ => h.elim
  | .lam ts b, h, p, hp => Within.consts h.2 p hp
  | .bin _ a b, h, p, hp => by
    simp only [Value.constants, List.mem_append] at hp
    exact hp.elim (Within.consts h.1 p) (Within.consts h.2 p)
  | .not a, h, p, hp => Within.consts (v := a) h p hp
  | .try_ a t, h, p, hp => Within.consts h.1 p hp
  | .all ts b, h, p, hp => Within.consts h.2 p hp
  | .ex ts b, h, p, hp => Within.consts h.2 p hp
  | .group a, h, p, hp => Within.consts (v := a) h p hp
  | .bool _, _, p, hp => by simp [Value.constants] at hp
  | .ite c a b, h, p, hp => by
    simp only [Value.constants, List.mem_append] at hp
    exact hp.elim (Within.consts h.1 p) fun hp => hp.elim (Within.consts h.2.1 p) (Within.consts h.2.2 p)
  | .match_ s cs, h, p, hp => by
    simp only [Value.constants, List.mem_append] at hp
    exact hp.elim (Within.consts h.1 p) (WithinCases.consts h.2 p)

theorem WithinAll.consts : ∀ {vs : List Value}, WithinAll cn tn vs → ∀ p ∈ Value.constantsAll vs, cn p.1 p.2.length
  | [], _, _, hp => by simp [Value.constantsAll] at hp
  | v :: vs, h, p, hp => by
    simp only [Value.constantsAll, List.mem_append] at hp
    exact hp.elim (Within.consts h.1 p) (WithinAll.consts h.2 p)

theorem WithinCases.consts : ∀ {cs : List Case}, WithinCases cn tn cs → ∀ p ∈ Value.constantsCases cs, cn p.1 p.2.length
  | [], _, _, hp => by simp [Value.constantsCases] at hp
  | .mk ts p r _ _ :: cs, h, q, hp => by
    simp only [Value.constantsCases, List.mem_append] at hp
    exact hp.elim (Within.consts h.2.1 q) fun hp => hp.elim (Within.consts h.2.2.1 q) (WithinCases.consts h.2.2.2 q)

end

/-! ### Only the constants that occur matter -/

/-- Two interpretations agree on the constants with these type arguments. -/
def SameConsts (F : Frame.{u}) (C C' : String → List F.T → F.D) (θ : String → F.T) (ps : List (String × List Ty)) : Prop :=
  ∀ p ∈ ps, C p.1 (F.tys θ p.2) = C' p.1 (F.tys θ p.2)

theorem SameConsts.left {C' : String → List F.T → F.D} {θ : String → F.T} {ps qs : List (String × List Ty)}
    (h : SameConsts F C C' θ (ps ++ qs)) : SameConsts F C C' θ ps := fun p hp => h p (List.mem_append_left _ hp)

theorem SameConsts.right {C' : String → List F.T → F.D} {θ : String → F.T} {ps qs : List (String × List Ty)}
    (h : SameConsts F C C' θ (ps ++ qs)) : SameConsts F C C' θ qs := fun p hp => h p (List.mem_append_right _ hp)

mutual

theorem den_consts {C' : String → List F.T → F.D} {θ : String → F.T} : ∀ (v : Value) (env : List F.D),
    Within cn tn v → SameConsts F C C' θ v.constants → F.den C θ env v = F.den C' θ env v
  | .var _ _, _, _, _ => rfl
  | .const n ps _, _, _, h => h (n, ps) (by simp [Value.constants])
  | .app f as, env, w, h => by
    simp only [Frame.den, den_consts f env w.1 h.left, den_constsAll as env w.2 h.right]
  | .tapp _ _ _, _, w, _ => w.elim
  | .lam ts b, env, w, h => by
    simp only [Frame.den]
    congr 1
    funext xs
    exact den_consts b _ w.2 h
  | .bin op a b, env, w, h => by
    simp only [Frame.den, den_consts a env w.1 h.left, den_consts b env w.2 h.right]
  | .not a, env, w, h => by
    simp only [Frame.den]
    rw [den_consts a env w h]
  | .try_ a t, env, w, h => by
    simp only [Frame.den]
    rw [den_consts a env w.1 h]
  | .all ts b, env, w, h => by
    simp only [Frame.den]
    refine ofProp_congr (forall_congr' fun xs => imp_congr_right fun _ => ?_)
    rw [den_consts b _ w.2 h]
  | .ex ts b, env, w, h => by
    simp only [Frame.den]
    refine ofProp_congr (exists_congr fun xs => and_congr_right fun _ => ?_)
    rw [den_consts b _ w.2 h]
  | .group a, env, w, h => den_consts a env w h
  | .bool _, _, _, _ => rfl
  | .ite c a b, env, w, h => by
    simp only [Frame.den, den_consts c env w.1 h.left, den_consts a env w.2.1 h.right.left,
      den_consts b env w.2.2 h.right.right]
  | .match_ s cs, env, w, h => by
    simp only [Frame.den, den_consts s env w.1 h.left]
    exact den_constsCases cs env _ w.2 h.right

theorem den_constsAll {C' : String → List F.T → F.D} {θ : String → F.T} : ∀ (vs : List Value) (env : List F.D),
    WithinAll cn tn vs → SameConsts F C C' θ (Value.constantsAll vs) → F.denAll C θ env vs = F.denAll C' θ env vs
  | [], _, _, _ => rfl
  | v :: vs, env, w, h => by
    simp only [Frame.denAll, den_consts v env w.1 h.left, den_constsAll vs env w.2 h.right]

theorem den_constsCases {C' : String → List F.T → F.D} {θ : String → F.T} : ∀ (cs : List Case) (env : List F.D)
    (d : F.D), WithinCases cn tn cs → SameConsts F C C' θ (Value.constantsCases cs) →
    F.denCases C θ env d cs = F.denCases C' θ env d cs
  | [], _, _, _, _ => rfl
  | .mk ts p r _ _ :: cs, env, d, w, h => by
    simp only [Frame.denCases]
    refine pick_congr (fun xs => and_congr_right fun _ => ?_) (fun xs _ => ?_) ?_
    · rw [den_consts p _ w.2.1 h.left]
    · exact den_consts r _ w.2.2.1 h.right.left
    · exact den_constsCases cs env d w.2.2.2 h.right.right

end

/-- The meaning of a value depends on the names in scope only. -/
theorem den_within {C' : String → List F.T → F.D} {θ θ' : String → F.T} {v : Value} (env : List F.D)
    (w : Within cn tn v) (hc : ∀ n k, cn n k → C n = C' n) (ht : ∀ n, tn n → θ n = θ' n) :
    F.den C θ env v = F.den C' θ' env v := by
  rw [den_congr env v fun n hn => ht n (Within.names w n hn)]
  exact den_consts v env w fun p hp => by rw [hc _ _ (Within.consts w p hp)]

/-! ### Operations -/

mutual

theorem Within.insert (i k : Nat) : ∀ {v : Value}, Within cn tn v → Within cn tn (v.insertStack i k)
  | .var j t, h => by unfold Value.insertStack; split <;> exact h
  | .const _ _ _, h => h
  | .app _ _, h => ⟨Within.insert i k h.1, WithinAll.insert i k h.2⟩
  | .tapp _ _ _, h => h.elim
  | .lam _ _, h => ⟨h.1, Within.insert i k h.2⟩
  | .bin _ _ _, h => ⟨Within.insert i k h.1, Within.insert i k h.2⟩
  | .not a, h => Within.insert (v := a) i k h
  | .try_ _ _, h => ⟨Within.insert i k h.1, h.2⟩
  | .all _ _, h => ⟨h.1, Within.insert i k h.2⟩
  | .ex _ _, h => ⟨h.1, Within.insert i k h.2⟩
  | .group a, h => Within.insert (v := a) i k h
  | .bool _, _ => trivial
  | .ite _ _ _, h => ⟨Within.insert i k h.1, Within.insert i k h.2.1, Within.insert i k h.2.2⟩
  | .match_ _ _, h => ⟨Within.insert i k h.1, WithinCases.insert i k h.2⟩

theorem WithinAll.insert (i k : Nat) : ∀ {vs : List Value}, WithinAll cn tn vs → WithinAll cn tn (Value.insertStackAll i k vs)
  | [], _ => trivial
  | _ :: _, h => ⟨Within.insert i k h.1, WithinAll.insert i k h.2⟩

theorem WithinCases.insert (i k : Nat) : ∀ {cs : List Case}, WithinCases cn tn cs →
    WithinCases cn tn (Value.insertStackCases i k cs)
  | [], _ => trivial
  | .mk _ _ _ _ _ :: _, h => ⟨h.1, Within.insert i k h.2.1, Within.insert i k h.2.2.1, WithinCases.insert i k h.2.2.2⟩

end

theorem WithinAll.get : ∀ {vs : List Value}, WithinAll cn tn vs → ∀ v ∈ vs, Within cn tn v
  | [], _, _, hv => by simp at hv
  | _ :: _, h, v, hv => by
    rcases List.mem_cons.1 hv with rfl | hv
    · exact h.1
    · exact WithinAll.get h.2 v hv

theorem WithinAll.of : ∀ {vs : List Value}, (∀ v ∈ vs, Within cn tn v) → WithinAll cn tn vs
  | [], _ => trivial
  | _ :: _, h => ⟨h _ (List.mem_cons_self ..), WithinAll.of fun v hv => h v (List.mem_cons_of_mem _ hv)⟩

mutual

theorem Within.bind {vals : List Value} (hv : WithinAll cn tn vals) (i : Nat) : ∀ {v : Value} (k : Nat), Within cn tn v →
    Within cn tn (v.bindValues i k vals)
  | .var j t, k, h => by
    unfold Value.bindValues
    split
    · exact h
    · split
      · exact Within.insert _ _ (WithinAll.get hv _ (List.getElem_mem _))
      · exact h
  | .const _ _ _, _, h => h
  | .app _ _, k, h => ⟨Within.bind hv i k h.1, WithinAll.bind hv i k h.2⟩
  | .tapp _ _ _, _, h => h.elim
  | .lam _ _, k, h => ⟨h.1, Within.bind hv i _ h.2⟩
  | .bin _ _ _, k, h => ⟨Within.bind hv i k h.1, Within.bind hv i k h.2⟩
  | .not a, k, h => Within.bind hv i (v := a) k h
  | .try_ _ _, k, h => ⟨Within.bind hv i k h.1, h.2⟩
  | .all _ _, k, h => ⟨h.1, Within.bind hv i _ h.2⟩
  | .ex _ _, k, h => ⟨h.1, Within.bind hv i _ h.2⟩
  | .group a, k, h => Within.bind hv i (v := a) k h
  | .bool _, _, _ => trivial
  | .ite _ _ _, k, h => ⟨Within.bind hv i k h.1, Within.bind hv i k h.2.1, Within.bind hv i k h.2.2⟩
  | .match_ _ _, k, h => ⟨Within.bind hv i k h.1, WithinCases.bind hv i k h.2⟩

theorem WithinAll.bind {vals : List Value} (hv : WithinAll cn tn vals) (i : Nat) : ∀ {vs : List Value} (k : Nat),
    WithinAll cn tn vs → WithinAll cn tn (Value.bindValuesAll i k vals vs)
  | [], _, _ => trivial
  | _ :: _, k, h => ⟨Within.bind hv i k h.1, WithinAll.bind hv i k h.2⟩

theorem WithinCases.bind {vals : List Value} (hv : WithinAll cn tn vals) (i : Nat) : ∀ {cs : List Case} (k : Nat),
    WithinCases cn tn cs → WithinCases cn tn (Value.bindValuesCases i k vals cs)
  | [], _, _ => trivial
  | .mk _ _ _ _ _ :: _, k, h =>
    ⟨h.1, Within.bind hv i _ h.2.1, Within.bind hv i _ h.2.2.1, WithinCases.bind hv i k h.2.2.2⟩

end

mutual

theorem Within.arbitrary : ∀ {v : Value}, Within cn tn v → Within cn tn v.toArbitrary
  | .var _ t, h => fun n hn => h n ((names_toArbitrary n t).1 hn)
  | .const _ ps t, h => ⟨by rw [toArbitraryAll_length]; exact h.1, fun n hn => h.2.1 n ((namesAll_toArbitrary n ps).1 hn),
      fun n hn => h.2.2 n ((names_toArbitrary n t).1 hn)⟩
  | .app _ _, h => ⟨Within.arbitrary h.1, WithinAll.arbitrary h.2⟩
  | .tapp _ _ _, h => h.elim
  | .lam ts _, h => ⟨fun n hn => h.1 n ((namesAll_toArbitrary n ts).1 hn), Within.arbitrary h.2⟩
  | .bin _ _ _, h => ⟨Within.arbitrary h.1, Within.arbitrary h.2⟩
  | .not a, h => Within.arbitrary (v := a) h
  | .try_ _ t, h => ⟨Within.arbitrary h.1, fun n hn => h.2 n ((names_toArbitrary n t).1 hn)⟩
  | .all ts _, h => ⟨fun n hn => h.1 n ((namesAll_toArbitrary n ts).1 hn), Within.arbitrary h.2⟩
  | .ex ts _, h => ⟨fun n hn => h.1 n ((namesAll_toArbitrary n ts).1 hn), Within.arbitrary h.2⟩
  | .group a, h => Within.arbitrary (v := a) h
  | .bool _, _ => trivial
  | .ite _ _ _, h => ⟨Within.arbitrary h.1, Within.arbitrary h.2.1, Within.arbitrary h.2.2⟩
  | .match_ _ _, h => ⟨Within.arbitrary h.1, WithinCases.arbitrary h.2⟩

theorem WithinAll.arbitrary : ∀ {vs : List Value}, WithinAll cn tn vs → WithinAll cn tn (Value.toArbitraryAll vs)
  | [], _ => trivial
  | _ :: _, h => ⟨Within.arbitrary h.1, WithinAll.arbitrary h.2⟩

theorem WithinCases.arbitrary : ∀ {cs : List Case}, WithinCases cn tn cs → WithinCases cn tn (Value.toArbitraryCases cs)
  | [], _ => trivial
  | .mk _ _ _ _ _ :: _, h => ⟨h.1, Within.arbitrary h.2.1, Within.arbitrary h.2.2.1, WithinCases.arbitrary h.2.2.2⟩

end

mutual

theorem Within.replace {cn' : String → Nat → Prop} {rep : Value.Replacer} (base : Nat)
    (hs : ∀ n ps t w, (∀ m ∈ tyNames t, tn m) → rep n ps t = some w → Within cn tn w)
    (hn : ∀ n ps t, cn' n ps.length → rep n ps t = none → cn n ps.length) : ∀ {v : Value} (k : Nat), Within cn' tn v →
    Within cn tn (v.replaceConstants k base rep)
  | .var _ _, _, h => h
  | .const n ps t, k, h => by
    unfold Value.replaceConstants
    split
    · next e => exact ⟨hn n ps t h.1 e, h.2⟩
    · next w e =>
      split
      · exact hs n ps t w h.2.2 e
      · exact Within.insert _ _ (hs n ps t w h.2.2 e)
  | .app _ _, k, h => ⟨Within.replace base hs hn k h.1, WithinAll.replace base hs hn k h.2⟩
  | .tapp _ _ _, _, h => h.elim
  | .lam _ _, k, h => ⟨h.1, Within.replace base hs hn _ h.2⟩
  | .bin _ _ _, k, h => ⟨Within.replace base hs hn k h.1, Within.replace base hs hn k h.2⟩
  | .not a, k, h => Within.replace base hs hn (v := a) k h
  | .try_ _ _, k, h => ⟨Within.replace base hs hn k h.1, h.2⟩
  | .all _ _, k, h => ⟨h.1, Within.replace base hs hn _ h.2⟩
  | .ex _ _, k, h => ⟨h.1, Within.replace base hs hn _ h.2⟩
  | .group a, k, h => Within.replace base hs hn (v := a) k h
  | .bool _, _, _ => trivial
  | .ite _ _ _, k, h =>
    ⟨Within.replace base hs hn k h.1, Within.replace base hs hn k h.2.1, Within.replace base hs hn k h.2.2⟩
  | .match_ _ _, k, h => ⟨Within.replace base hs hn k h.1, WithinCases.replace base hs hn k h.2⟩

theorem WithinAll.replace {cn' : String → Nat → Prop} {rep : Value.Replacer} (base : Nat)
    (hs : ∀ n ps t w, (∀ m ∈ tyNames t, tn m) → rep n ps t = some w → Within cn tn w)
    (hn : ∀ n ps t, cn' n ps.length → rep n ps t = none → cn n ps.length) : ∀ {vs : List Value} (k : Nat), WithinAll cn' tn vs →
    WithinAll cn tn (Value.replaceConstantsAll k base rep vs)
  | [], _, _ => trivial
  | _ :: _, k, h => ⟨Within.replace base hs hn k h.1, WithinAll.replace base hs hn k h.2⟩

theorem WithinCases.replace {cn' : String → Nat → Prop} {rep : Value.Replacer} (base : Nat)
    (hs : ∀ n ps t w, (∀ m ∈ tyNames t, tn m) → rep n ps t = some w → Within cn tn w)
    (hn : ∀ n ps t, cn' n ps.length → rep n ps t = none → cn n ps.length) : ∀ {cs : List Case} (k : Nat), WithinCases cn' tn cs →
    WithinCases cn tn (Value.replaceConstantsCases k base rep cs)
  | [], _, _ => trivial
  | .mk _ _ _ _ _ :: _, k, h =>
    ⟨h.1, Within.replace base hs hn _ h.2.1, Within.replace base hs hn _ h.2.2.1, WithinCases.replace base hs hn k h.2.2.2⟩

end

theorem constGeneric_eq {params : List String} {ps : List Ty} {t : Ty} (h : FullyApplied params ps t) :
    constGeneric params ps t = Ty.genericizeAll params ps := by
  unfold constGeneric
  split
  · next h1 =>
    simp only [Bool.and_eq_true, List.isEmpty_iff] at h1
    rcases hasGeneric_genericize h1.1 with ⟨p, hp, h2⟩ | ⟨p, h2⟩
    · have := h.1 p hp h2
      rw [h1.2] at this
      cases this
    · rw [h.2 h1.2 p] at h2; cases h2
  · split
    · rw [addParams_eq]
      intro p hp hpt
      exact (names_genericizeAll params p ps).2 (h.1 p hp hpt)
    · rfl

mutual

theorem Within.generic {params : List String} : ∀ {v : Value}, Within cn tn v →
    EachConst (fun _ ps t => FullyApplied params ps t) v → Within cn tn (v.genericize params)
  | .var _ t, h, _ => fun n hn => h n ((names_genericize params n t).1 hn)
  | .const _ ps t, h, e => by
    refine ⟨?_, ?_, fun n hn => h.2.2 n ((names_genericize params n t).1 hn)⟩
    · rw [constGeneric_eq e, genericizeAll_length]; exact h.1
    · rw [constGeneric_eq e]; exact fun n hn => h.2.1 n ((names_genericizeAll params n ps).1 hn)
  | .app _ _, h, e => ⟨Within.generic h.1 e.1, WithinAll.generic h.2 e.2⟩
  | .tapp _ _ _, h, _ => h.elim
  | .lam ts _, h, e => ⟨fun n hn => h.1 n ((names_genericizeAll params n ts).1 hn), Within.generic h.2 e⟩
  | .bin _ _ _, h, e => ⟨Within.generic h.1 e.1, Within.generic h.2 e.2⟩
  | .not a, h, e => Within.generic (v := a) h e
  | .try_ _ t, h, e => ⟨Within.generic h.1 e, fun n hn => h.2 n ((names_genericize params n t).1 hn)⟩
  | .all ts _, h, e => ⟨fun n hn => h.1 n ((names_genericizeAll params n ts).1 hn), Within.generic h.2 e⟩
  | .ex ts _, h, e => ⟨fun n hn => h.1 n ((names_genericizeAll params n ts).1 hn), Within.generic h.2 e⟩
  | .group a, h, e => Within.generic (v := a) h e
  | .bool _, _, _ => trivial
  | .ite _ _ _, h, e => ⟨Within.generic h.1 e.1, Within.generic h.2.1 e.2.1, Within.generic h.2.2 e.2.2⟩
  | .match_ _ _, h, e => ⟨Within.generic h.1 e.1, WithinCases.generic h.2 e.2⟩

theorem WithinAll.generic {params : List String} : ∀ {vs : List Value}, WithinAll cn tn vs →
    EachConstAll (fun _ ps t => FullyApplied params ps t) vs → WithinAll cn tn (Value.genericizeAll params vs)
  | [], _, _ => trivial
  | _ :: _, h, e => ⟨Within.generic h.1 e.1, WithinAll.generic h.2 e.2⟩

theorem WithinCases.generic {params : List String} : ∀ {cs : List Case}, WithinCases cn tn cs →
    EachConstCases (fun _ ps t => FullyApplied params ps t) cs → WithinCases cn tn (Value.genericizeCases params cs)
  | [], _, _ => trivial
  | .mk ts _ _ _ _ :: _, h, e => ⟨fun n hn => h.1 n ((names_genericizeAll params n ts).1 hn), Within.generic h.2.1 e.1,
      Within.generic h.2.2.1 e.2.1, WithinCases.generic h.2.2.2 e.2.2⟩

end

/-! ### Constants under binding -/

mutual

theorem EachConst.insert {P : String → List Ty → Ty → Prop} (i k : Nat) : ∀ {v : Value}, EachConst P v →
    EachConst P (v.insertStack i k)
  | .var j t, _ => by unfold Value.insertStack; split <;> trivial
  | .const _ _ _, h => h
  | .app _ _, h => ⟨EachConst.insert i k h.1, EachConstAll.insert i k h.2⟩
  | .tapp f _ _, h => EachConst.insert (v := f) i k h
  | .lam _ b, h => EachConst.insert (v := b) i k h
  | .bin _ _ _, h => ⟨EachConst.insert i k h.1, EachConst.insert i k h.2⟩
  | .not a, h => EachConst.insert (v := a) i k h
  | .try_ a _, h => EachConst.insert (v := a) i k h
  | .all _ b, h => EachConst.insert (v := b) i k h
  | .ex _ b, h => EachConst.insert (v := b) i k h
  | .group a, h => EachConst.insert (v := a) i k h
  | .bool _, _ => trivial
  | .ite _ _ _, h => ⟨EachConst.insert i k h.1, EachConst.insert i k h.2.1, EachConst.insert i k h.2.2⟩
  | .match_ _ _, h => ⟨EachConst.insert i k h.1, EachConstCases.insert i k h.2⟩

theorem EachConstAll.insert {P : String → List Ty → Ty → Prop} (i k : Nat) : ∀ {vs : List Value}, EachConstAll P vs →
    EachConstAll P (Value.insertStackAll i k vs)
  | [], _ => trivial
  | _ :: _, h => ⟨EachConst.insert i k h.1, EachConstAll.insert i k h.2⟩

theorem EachConstCases.insert {P : String → List Ty → Ty → Prop} (i k : Nat) : ∀ {cs : List Case},
    EachConstCases P cs → EachConstCases P (Value.insertStackCases i k cs)
  | [], _ => trivial
  | .mk _ _ _ _ _ :: _, h => ⟨EachConst.insert i k h.1, EachConst.insert i k h.2.1, EachConstCases.insert i k h.2.2⟩

end

mutual

theorem EachConst.bind {P : String → List Ty → Ty → Prop} {vals : List Value} (hv : ∀ v ∈ vals, EachConst P v) (i : Nat) :
    ∀ {v : Value} (k : Nat), EachConst P v → EachConst P (v.bindValues i k vals)
  | .var j t, k, _ => by
    unfold Value.bindValues
    split
    · trivial
    · split
      · exact EachConst.insert _ _ (hv _ (List.getElem_mem _))
      · trivial
  | .const _ _ _, _, h => h
  | .app _ _, k, h => ⟨EachConst.bind hv i k h.1, EachConstAll.bind hv i k h.2⟩
  | .tapp f _ _, k, h => EachConst.bind hv i (v := f) k h
  | .lam _ b, k, h => EachConst.bind hv i (v := b) _ h
  | .bin _ _ _, k, h => ⟨EachConst.bind hv i k h.1, EachConst.bind hv i k h.2⟩
  | .not a, k, h => EachConst.bind hv i (v := a) k h
  | .try_ a _, k, h => EachConst.bind hv i (v := a) k h
  | .all _ b, k, h => EachConst.bind hv i (v := b) _ h
  | .ex _ b, k, h => EachConst.bind hv i (v := b) _ h
  | .group a, k, h => EachConst.bind hv i (v := a) k h
  | .bool _, _, _ => trivial
  | .ite _ _ _, k, h => ⟨EachConst.bind hv i k h.1, EachConst.bind hv i k h.2.1, EachConst.bind hv i k h.2.2⟩
  | .match_ _ _, k, h => ⟨EachConst.bind hv i k h.1, EachConstCases.bind hv i k h.2⟩

theorem EachConstAll.bind {P : String → List Ty → Ty → Prop} {vals : List Value} (hv : ∀ v ∈ vals, EachConst P v) (i : Nat) :
    ∀ {vs : List Value} (k : Nat), EachConstAll P vs → EachConstAll P (Value.bindValuesAll i k vals vs)
  | [], _, _ => trivial
  | _ :: _, k, h => ⟨EachConst.bind hv i k h.1, EachConstAll.bind hv i k h.2⟩

theorem EachConstCases.bind {P : String → List Ty → Ty → Prop} {vals : List Value} (hv : ∀ v ∈ vals, EachConst P v) (i : Nat) :
    ∀ {cs : List Case} (k : Nat), EachConstCases P cs → EachConstCases P (Value.bindValuesCases i k vals cs)
  | [], _, _ => trivial
  | .mk _ _ _ _ _ :: _, k, h =>
    ⟨EachConst.bind hv i _ h.1, EachConst.bind hv i _ h.2.1, EachConstCases.bind hv i k h.2.2⟩

end

theorem Within.mkAll {ts : List Ty} {v : Value} (ht : ∀ n ∈ tysNames ts, tn n) (h : Within cn tn v) :
    Within cn tn (Value.mkAll ts v) := by
  unfold Value.mkAll; split
  · exact h
  · exact ⟨ht, h⟩

theorem Within.mkEx {ts : List Ty} {v : Value} (ht : ∀ n ∈ tysNames ts, tn n) (h : Within cn tn v) :
    Within cn tn (Value.mkEx ts v) := by
  unfold Value.mkEx; split
  · exact h
  · exact ⟨ht, h⟩

theorem Within.mkLam {ts : List Ty} {v : Value} (ht : ∀ n ∈ tysNames ts, tn n) (h : Within cn tn v) :
    Within cn tn (Value.mkLam ts v) := by
  unfold Value.mkLam; split
  · exact h
  · exact ⟨ht, h⟩

theorem Within.apply {f : Value} {as : List Value} (hf : Within cn tn f) (h : WithinAll cn tn as) :
    Within cn tn (f.apply as) := by
  unfold Value.apply; split
  · exact hf
  · exact ⟨hf, h⟩

theorem Within.negate : ∀ {v : Value}, Within cn tn v → Within cn tn v.negate
  | .group x, h => Within.negate (v := x) h
  | .not x, h => h
  | .bin .equals _ _, h => h
  | .bin .notEquals _ _, h => h
  | .bin .implies _ _, h => h
  | .bin .and _ _, h => h
  | .bin .or _ _, h => h
  | .bool _, _ => trivial
  | .var _ _, h => h
  | .const _ _ _, h => h
  | .app _ _, h => h
  | .tapp _ _ _, h => h
  | .lam _ _, h => h
  | .try_ _ _, h => h
  | .all _ _, h => h
  | .ex _ _, h => h
  | .ite _ _ _, h => h
  | .match_ _ _, h => h

theorem Within.reduce {op : BinOp} {vs : List Value} {v : Value} (h : ∀ w ∈ vs, Within cn tn w)
    (e : Value.reduce op vs = some v) : Within cn tn v := by
  cases vs with
  | nil => simp [Value.reduce] at e
  | cons w vs =>
    simp only [Value.reduce, Option.some.injEq] at e
    subst e
    have : ∀ (vs : List Value) (a : Value), Within cn tn a → (∀ w ∈ vs, Within cn tn w) →
        Within cn tn (vs.foldl (fun a b => .bin op a b) a) := by
      intro vs
      induction vs with
      | nil => exact fun _ h _ => h
      | cons b vs ih =>
        exact fun a ha h => ih (.bin op a b) ⟨ha, h b (List.mem_cons_self ..)⟩ fun w hw => h w (List.mem_cons_of_mem _ hw)
    exact this vs w (h w (List.mem_cons_self ..)) fun x hx => h x (List.mem_cons_of_mem _ hx)

theorem Within.split {v : Value} (h : Within cn tn v) :
    (∀ p, (splitClaim v).1 = some p → Within cn tn p) ∧ Within cn tn (splitClaim v).2 := by
  unfold splitClaim
  split
  · exact ⟨fun p e => by cases e; exact h.1, h.2⟩
  · exact ⟨fun p e => (by cases e), h⟩

theorem Within.externalize {args others : List (String × Ty)} {cn' : String → Nat → Prop} {v : Value}
    (hc : ∀ n k, cn' n k → cn n k ∨ n ∈ (args ++ others).map (·.1)) (ht : ∀ n ∈ tysNames ((args ++ others).map (·.2)), tn n)
    (h : Within cn' tn v) : Within cn tn (v.externalize args others) := by
  unfold Value.externalize
  simp only [List.map_append, tysNames_append, List.mem_append] at ht
  refine Within.mkAll (fun n hn => ht n (.inl hn)) (Within.mkEx (fun n hn => ht n (.inr hn)) ?_)
  refine Within.replace (cn' := cn') 0 ?_ ?_ 0 (Within.insert _ _ h)
  · intro n ps t w ht e
    split at e
    · cases e; exact ht
    · cases e
  · intro n ps t hn e
    split at e
    · cases e
    · next h => exact (hc n _ hn).resolve_right h

/-! ### Equal up to the types of constants -/

mutual

theorem den_same {θ : String → F.T} : ∀ (v w : Value) (env : List F.D), v.same w = true →
    F.den C θ env v = F.den C θ env w
  | .var i t, w, env, h => by
    cases w <;> simp only [Value.same, Bool.and_eq_true, beq_iff_eq, Bool.false_eq_true] at h
    simp only [Frame.den, h.1]
  | .const n ps t, w, env, h => by
    cases w <;> simp only [Value.same, Bool.and_eq_true, beq_iff_eq, Bool.false_eq_true, sameAll_iff] at h
    simp only [Frame.den, h.1, h.2]
  | .app f as, w, env, h => by
    cases w <;> simp only [Value.same, Bool.and_eq_true, Bool.false_eq_true] at h
    simp only [Frame.den, den_same f _ env h.1, den_sameAll as _ env h.2]
  | .tapp f ns ts, w, env, h => by
    cases w <;> simp only [Value.same, Bool.and_eq_true, beq_iff_eq, Bool.false_eq_true, sameAll_iff] at h
    obtain ⟨⟨h1, h2⟩, h3⟩ := h
    subst h2 h3
    simp only [Frame.den]
    exact den_same f _ env h1
  | .lam ts b, w, env, h => by
    cases w <;> simp only [Value.same, Bool.and_eq_true, Bool.false_eq_true, sameAll_iff] at h
    simp only [Frame.den, h.1]
    congr 1
    funext xs
    exact den_same b _ _ h.2
  | .bin op a b, w, env, h => by
    cases w <;> simp only [Value.same, Bool.and_eq_true, beq_iff_eq, Bool.false_eq_true] at h
    simp only [Frame.den, h.1.1, den_same a _ env h.1.2, den_same b _ env h.2]
  | .not a, w, env, h => by
    cases w <;> simp only [Value.same, Bool.false_eq_true] at h
    simp only [Frame.den, den_same a _ env h]
  | .try_ a t, w, env, h => by
    cases w <;> simp only [Value.same, Bool.and_eq_true, Bool.false_eq_true, same_iff] at h
    simp only [Frame.den, den_same a _ env h.1, h.2]
  | .all ts b, w, env, h => by
    cases w <;> simp only [Value.same, Bool.and_eq_true, Bool.false_eq_true, sameAll_iff] at h
    simp only [Frame.den, h.1]
    refine ofProp_congr (forall_congr' fun xs => imp_congr_right fun _ => ?_)
    rw [den_same b _ _ h.2]
  | .ex ts b, w, env, h => by
    cases w <;> simp only [Value.same, Bool.and_eq_true, Bool.false_eq_true, sameAll_iff] at h
    simp only [Frame.den, h.1]
    refine ofProp_congr (exists_congr fun xs => and_congr_right fun _ => ?_)
    rw [den_same b _ _ h.2]
  | .group a, w, env, h => by
    cases w <;> simp only [Value.same, Bool.false_eq_true] at h
    simp only [Frame.den, den_same a _ env h]
  | .bool a, w, env, h => by
    cases w <;> simp only [Value.same, beq_iff_eq, Bool.false_eq_true] at h
    simp only [Frame.den, h]
  | .ite c a b, w, env, h => by
    cases w <;> simp only [Value.same, Bool.and_eq_true, Bool.false_eq_true] at h
    simp only [Frame.den, den_same c _ env h.1.1, den_same a _ env h.1.2, den_same b _ env h.2]
  | .match_ s cs, w, env, h => by
    cases w <;> simp only [Value.same, Bool.and_eq_true, Bool.false_eq_true] at h
    simp only [Frame.den, den_same s _ env h.1]
    exact den_sameCases cs _ env _ h.2

theorem den_sameAll {θ : String → F.T} : ∀ (vs ws : List Value) (env : List F.D), Value.sameAll vs ws = true →
    F.denAll C θ env vs = F.denAll C θ env ws
  | [], ws, _, h => by cases ws <;> simp [Value.sameAll] at h; rfl
  | v :: vs, ws, env, h => by
    cases ws <;> simp only [Value.sameAll, Bool.and_eq_true, Bool.false_eq_true] at h
    simp only [Frame.denAll, den_same v _ env h.1, den_sameAll vs _ env h.2]

theorem den_sameCases {θ : String → F.T} : ∀ (cs ds : List Case) (env : List F.D) (d : F.D),
    Value.sameCases cs ds = true → F.denCases C θ env d cs = F.denCases C θ env d ds
  | [], ds, _, _, h => by cases ds <;> simp [Value.sameCases] at h; rfl
  | .mk ts p r i n :: cs, ds, env, d, h => by
    cases ds with
    | nil => simp [Value.sameCases] at h
    | cons c ds =>
      cases c with
      | mk us q s j m =>
        simp only [Value.sameCases, Bool.and_eq_true, beq_iff_eq, sameAll_iff] at h
        obtain ⟨⟨⟨⟨⟨h1, h2⟩, h3⟩, _⟩, _⟩, h6⟩ := h
        subst h1
        simp only [Frame.denCases]
        refine pick_congr (fun xs => and_congr_right fun _ => ?_) (fun xs _ => den_same r _ _ h3)
          (den_sameCases cs ds env d h6)
        rw [den_same p _ _ h2]

end

end Elab
end Acorn
