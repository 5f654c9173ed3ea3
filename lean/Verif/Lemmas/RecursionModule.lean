/-
Recursive definitions that pass the termination check can be met.
-/
import Verif.Spec.RecursionModule
import Verif.Lemmas.RecursionSolve
import Verif.Lemmas.ModuleSatisfy
namespace Acorn
namespace Elab

open Spec Spec.Modules

universe u

section
variable {F : Frame.{u}} {C : String → List F.T → F.D} {f : String} {new : List Ty}

/-! ### The stored value means what the evaluated value means -/

mutual

theorem den_setParams : ∀ (θ : String → F.T) (env : List F.D) (v : Value),
    EachConst (fun n ps _ => n = f → ∀ θ : String → F.T, F.tys θ ps = F.tys θ new) v →
    F.den C θ env (v.setParams f new) = F.den C θ env v
  | _, _, .var _ _, _ => rfl
  | _, _, .bool _, _ => rfl
  | θ, env, .const n ps t, h => by
    rw [Value.setParams, Frame.den, Frame.den]
    split
    · next e => rw [h e θ]
    · rfl
  | θ, env, .app g as, h => by
    rw [Value.setParams, Frame.den, den_setParams θ env g h.1, den_setParamsAll θ env as h.2, Frame.den]
  | θ, env, .tapp g ns ts, h => by
    rw [Value.setParams, Frame.den, den_setParams _ env g h, Frame.den]
  | θ, env, .lam ts b, h => by
    rw [Value.setParams, Frame.den, Frame.den]
    simp only [fun xs => den_setParams θ (env ++ xs) b h]
  | θ, env, .all ts b, h => by
    rw [Value.setParams, Frame.den, Frame.den]
    simp only [fun xs => den_setParams θ (env ++ xs) b h]
  | θ, env, .ex ts b, h => by
    rw [Value.setParams, Frame.den, Frame.den]
    simp only [fun xs => den_setParams θ (env ++ xs) b h]
  | θ, env, .group a, h => by rw [Value.setParams, Frame.den, den_setParams θ env a h, Frame.den]
  | θ, env, .bin op a b, h => by
    rw [Value.setParams, Frame.den, den_setParams θ env a h.1, den_setParams θ env b h.2, Frame.den]
  | θ, env, .ite c a b, h => by
    rw [Value.setParams, Frame.den, den_setParams θ env c h.1, den_setParams θ env a h.2.1, den_setParams θ env b h.2.2, Frame.den]
  | θ, env, .match_ s cs, h => by
    rw [Value.setParams, Frame.den, den_setParams θ env s h.1, den_setParamsCases θ env _ cs h.2, Frame.den]
  | θ, env, .not a, h => by rw [Value.setParams, Frame.den, den_setParams θ env a h, Frame.den]
  | θ, env, .try_ a t, h => by rw [Value.setParams, Frame.den, den_setParams θ env a h, Frame.den]

theorem den_setParamsAll : ∀ (θ : String → F.T) (env : List F.D) (vs : List Value),
    EachConstAll (fun n ps _ => n = f → ∀ θ : String → F.T, F.tys θ ps = F.tys θ new) vs →
    F.denAll C θ env (Value.setParamsAll f new vs) = F.denAll C θ env vs
  | _, _, [], _ => rfl
  | θ, env, v :: vs, h => by
    rw [Value.setParamsAll, Frame.denAll, den_setParams θ env v h.1, den_setParamsAll θ env vs h.2, Frame.denAll]

theorem den_setParamsCases : ∀ (θ : String → F.T) (env : List F.D) (d : F.D) (cs : List Case),
    EachConstCases (fun n ps _ => n = f → ∀ θ : String → F.T, F.tys θ ps = F.tys θ new) cs →
    F.denCases C θ env d (Value.setParamsCases f new cs) = F.denCases C θ env d cs
  | _, _, _, [], _ => rfl
  | θ, env, d, .mk ts p r i n :: cs, h => by
    rw [Value.setParamsCases, Frame.denCases, den_setParamsCases θ env d cs h.2.2, Frame.denCases]
    simp only [fun xs => den_setParams θ (env ++ xs) p h.1, fun xs => den_setParams θ (env ++ xs) r h.2.1]

end

mutual

theorem each_setParams {P Q : String → List Ty → Ty → Prop} (h : ∀ n ps t, P n ps t → Q n (if n = f then new else ps) t) :
    ∀ {v : Value}, EachConst P v → EachConst Q (v.setParams f new)
  | .var _ _, _ => trivial
  | .bool _, _ => trivial
  | .const n ps t, k => h n ps t k
  | .app g as, k => ⟨each_setParams h (v := g) k.1, each_setParamsAll h (vs := as) k.2⟩
  | .tapp g _ _, k => each_setParams h (v := g) k
  | .lam _ b, k => each_setParams h (v := b) k
  | .all _ b, k => each_setParams h (v := b) k
  | .ex _ b, k => each_setParams h (v := b) k
  | .group a, k => each_setParams h (v := a) k
  | .bin _ a b, k => ⟨each_setParams h (v := a) k.1, each_setParams h (v := b) k.2⟩
  | .ite c a b, k => ⟨each_setParams h (v := c) k.1, each_setParams h (v := a) k.2.1, each_setParams h (v := b) k.2.2⟩
  | .match_ s cs, k => ⟨each_setParams h (v := s) k.1, each_setParamsCases h (cs := cs) k.2⟩
  | .not a, k => each_setParams h (v := a) k
  | .try_ a _, k => each_setParams h (v := a) k

theorem each_setParamsAll {P Q : String → List Ty → Ty → Prop} (h : ∀ n ps t, P n ps t → Q n (if n = f then new else ps) t) :
    ∀ {vs : List Value}, EachConstAll P vs → EachConstAll Q (Value.setParamsAll f new vs)
  | [], _ => trivial
  | v :: vs, k => ⟨each_setParams h (v := v) k.1, each_setParamsAll h (vs := vs) k.2⟩

theorem each_setParamsCases {P Q : String → List Ty → Ty → Prop} (h : ∀ n ps t, P n ps t → Q n (if n = f then new else ps) t) :
    ∀ {cs : List Case}, EachConstCases P cs → EachConstCases Q (Value.setParamsCases f new cs)
  | [], _ => trivial
  | .mk _ p r _ _ :: cs, k =>
    ⟨each_setParams h (v := p) k.1, each_setParams h (v := r) k.2.1, each_setParamsCases h (cs := cs) k.2.2⟩

end

theorem names_tvars {p : String} : ∀ {ps : List String}, p ∈ ps → p ∈ tysNames (ps.map .tvar)
  | q :: ps, h => by
    rcases List.mem_cons.1 h with rfl | h
    · exact List.mem_append_left _ (by simp [tyNames])
    · exact List.mem_append_right _ (names_tvars h)

/-- The stored value of a definition means what its evaluated value means. -/
theorem den_external {params : List String} {t : Ty} (θ : String → F.T) (env : List F.D) (body : Value)
    (h : OwnCalls f params t body) : F.den C θ env (body.external f params) = F.den C θ env body := by
  unfold Value.external
  split
  · rfl
  next he =>
    rw [den_genericize, den_setParams]
    · refine EachConst.mono (fun n ps t' h e θ => ?_) h
      rw [if_pos e] at h
      rw [h.1, tys_map_arb, tys_map_tvar]
    · refine each_setParams (fun n ps t' h => ?_) h
      intro θ
      refine constGeneric_meaning θ (.inl ?_)
      split
      · refine ⟨fun p hp _ => names_tvars hp, fun e => ?_⟩
        rw [List.map_eq_nil_iff] at e
        rw [e] at he
        exact absurd rfl he
      · next hn =>
        rw [if_neg hn] at h
        exact h

/-! ### Only the type arguments that occur matter -/

variable {S : Theory} {θ : String → F.T} {C' : String → List F.T → F.D} {ts : List F.T}

theorem denAll_varsFrom (env : List F.D) : ∀ (n : Nat) (us : List Ty),
    F.denAll C θ env (varsFrom n us) = F.denAll C' θ env (varsFrom n us)
  | _, [] => rfl
  | n, u :: us => by
    show _ :: _ = _ :: _
    rw [denAll_varsFrom env (n + 1) us]
    rfl

mutual

theorem den_own (hc : ∀ n us, n = f → us = ts → C n us = C' n us) (hn : ∀ n us, n ≠ f → C n us = C' n us) :
    ∀ (v : Value) (Γ : List Ty) (t : Ty) (env : List F.D), ValueOk S Γ v t →
      EachConst (fun n ps _ => n = f → F.tys θ ps = ts) v → F.den C θ env v = F.den C' θ env v
  | .var _ _, _, _, _, _, _ => rfl
  | .bool _, _, _, _, _, _ => rfl
  | .const n ps t, _, _, _, _, h => by
    rw [Frame.den, Frame.den]
    by_cases e : n = f
    · exact hc _ _ e (h e)
    · exact hn _ _ e
  | .app g as, Γ, t, env, ⟨u, h1, h2⟩, k => by
    rw [Frame.den, Frame.den, den_own hc hn g Γ u env h1 k.1, den_ownAll hc hn as Γ u t env h2 k.2]
  | .tapp _ _ _, _, _, _, h, _ => h.elim
  | .lam us b, Γ, t, env, ⟨r, _, h⟩, k => by
    rw [Frame.den, Frame.den]
    simp only [fun xs => den_own hc hn b (Γ ++ us) r (env ++ xs) h k]
  | .all us b, Γ, t, env, ⟨_, h⟩, k => by
    rw [Frame.den, Frame.den]
    simp only [fun xs => den_own hc hn b (Γ ++ us) .bool (env ++ xs) h k]
  | .ex us b, Γ, t, env, ⟨_, h⟩, k => by
    rw [Frame.den, Frame.den]
    simp only [fun xs => den_own hc hn b (Γ ++ us) .bool (env ++ xs) h k]
  | .group a, Γ, t, env, h, k => by rw [Frame.den, Frame.den, den_own hc hn a Γ t env h k]
  | .bin op a b, Γ, t, env, ⟨_, u, h1, h2, _⟩, k => by
    rw [Frame.den, Frame.den, den_own hc hn a Γ u env h1 k.1, den_own hc hn b Γ u env h2 k.2]
  | .ite c a b, Γ, t, env, ⟨_, h1, h2, h3⟩, k => by
    rw [Frame.den, Frame.den, den_own hc hn c Γ .bool env h1 k.1, den_own hc hn a Γ t env h2 k.2.1,
      den_own hc hn b Γ t env h3 k.2.2]
  | .match_ s cs, Γ, t, env, ⟨_, _, d, as, ks, h1, _, _, h2⟩, k => by
    rw [Frame.den, Frame.den, den_own hc hn s Γ (.data d as) env h1 k.1, den_ownCases hc hn cs Γ ks t env _ h2 k.2]
  | .not a, Γ, t, env, ⟨_, h⟩, k => by rw [Frame.den, Frame.den, den_own hc hn a Γ .bool env h k]
  | .try_ _ _, _, _, _, h, _ => h.elim

theorem den_ownAll (hc : ∀ n us, n = f → us = ts → C n us = C' n us) (hn : ∀ n us, n ≠ f → C n us = C' n us) :
    ∀ (vs : List Value) (Γ : List Ty) (u t : Ty) (env : List F.D), ArgsOk S Γ vs u t →
      EachConstAll (fun n ps _ => n = f → F.tys θ ps = ts) vs → F.denAll C θ env vs = F.denAll C' θ env vs
  | [], _, _, _, _, _, _ => rfl
  | v :: vs, Γ, u, t, env, ⟨p, ps, r, _, h1, h2⟩, k => by
    rw [Frame.denAll, Frame.denAll, den_own hc hn v Γ p env h1 k.1, den_ownAll hc hn vs Γ _ t env h2 k.2]

theorem den_ownCases (hc : ∀ n us, n = f → us = ts → C n us = C' n us) (hn : ∀ n us, n ≠ f → C n us = C' n us) :
    ∀ (cs : List Case) (Γ : List Ty) (ks : List (String × List Ty × List Ty)) (t : Ty) (env : List F.D) (d : F.D), CasesOk S Γ cs ks t →
      EachConstCases (fun n ps _ => n = f → F.tys θ ps = ts) cs → F.denCases C θ env d cs = F.denCases C' θ env d cs
  | [], _, _, _, _, _, _, _ => rfl
  | .mk us p r i n :: cs, Γ, ks, t, env, d, ⟨⟨_, c, ps, ct, _, hp⟩, h1, h2⟩, k => by
    have e : ∀ xs, F.den C θ (env ++ xs) p = F.den C' θ (env ++ xs) p := by
      intro xs
      have k1 := k.1
      subst hp
      rw [den_apply', den_apply', denAll_varsFrom (C' := C'), Frame.den, Frame.den]
      have : c = f → F.tys θ ps = ts := by
        unfold Value.apply at k1
        split at k1
        · exact k1
        · exact k1.1
      congr 1
      by_cases e : c = f
      · exact hc _ _ e (this e)
      · exact hn _ _ e
    rw [Frame.denCases, Frame.denCases, den_ownCases hc hn cs Γ ks t env d h2 k.2.2]
    simp only [e, fun xs => den_own hc hn r (Γ ++ us) t (env ++ xs) h1 k.2.1]

end

/-! ### Definitions of a module -/

theorem instantiateAll_each (m : List (String × Ty)) : ∀ us : List Ty, Ty.instantiateAll m us = us.map (·.instantiate m)
  | [] => rfl
  | u :: us => congrArg (_ :: ·) (instantiateAll_each m us)

theorem instantiateAll_own : ∀ {ps : List String} {as : List Ty}, ps.Nodup → ps.length = as.length →
    Ty.instantiateAll (ps.zip as) (ps.map .tvar) = as
  | [], [], _, _ => rfl
  | [], _ :: _, _, h => by simp at h
  | _ :: _, [], _, h => by simp at h
  | p :: ps, a :: as, hd, h => by
    have ih := instantiateAll_own (List.nodup_cons.1 hd).2 (Nat.succ.inj h)
    rw [instantiateAll_each, List.map_map] at ih ⊢
    rw [List.map_cons]
    refine congr (congrArg List.cons ?_) ?_
    · simp [Ty.instantiate]
    · refine (List.map_congr_left fun q hq => ?_).trans ih
      have : (q == p) = false := beq_false_of_ne fun e => (List.nodup_cons.1 hd).1 (e ▸ hq)
      simp [Ty.instantiate, List.lookup_cons, this]

/-- An interpretation that suits the constants of the module suits the theory that describes them. -/
theorem Suits.apart {env : Env} (hS : Describes S env f) (hf : f ∉ env.names) (h : Suits F C θ env.consts) :
    SuitsApart F C θ S f := by
  refine ⟨?_, ?_, ?_, hS.one⟩
  · intro n params g ps hn hg ha
    obtain ⟨c, hc, rfl, e1, e2⟩ := hS.const n params g hn hg
    have := h.typed c hc (F.tys θ ps) (by rw [tys_length, smallArgs_length ha, e1]; simp)
    rw [ty_instantiate]
    show F.mem _ (F.ty (F.with_ θ ((((params.map (·.1)).zip ps)).map fun p => (p.1, F.ty θ p.2))) g)
    rw [zip_param_meanings, ← e1, ← e2]
    exact this
  · intro d as ks hk
    obtain ⟨h0, hall⟩ := hS.constructors d as ks hk
    have hex : ∃ c ∈ env.consts, (∃ i, c.con = some (d, i, ks.length)) ∧ (F.tys θ as).length = c.params.length := by
      obtain ⟨c, hc, us, e, _, _, e4, _⟩ := hall 0 (ks[0]) (List.getElem?_eq_getElem h0)
      exact ⟨c, hc, ⟨0, e⟩, by rw [tys_length, e4]⟩
    obtain ⟨cs, hl, hfree, hcs⟩ := h.free d ks.length (F.tys θ as) hex
    have : ks.map (conOf F C θ (.data d as)) = cs := by
      refine List.ext_getElem? fun i => ?_
      rw [List.getElem?_map]
      cases hi : ks[i]? with
      | none =>
        rw [List.getElem?_eq_none_iff] at hi
        rw [Option.map_none, eq_comm, List.getElem?_eq_none_iff, hl]
        exact hi
      | some k =>
        obtain ⟨c, hc, us, e1, e2, e3, e4, rfl, e6⟩ := hall i k hi
        rw [hcs c hc i e1 (by rw [tys_length, e4]) us e2, Option.map_some]
        refine congrArg some ?_
        unfold conOf constructorIn
        simp only [ConIn.mk.injEq, true_and]
        refine ⟨tys_inst _ _ _, ?_⟩
        rw [instantiateAll_each, List.map_map]
        refine List.map_congr_left fun u hu => propext ⟨e6 u hu, fun e => ?_⟩
        rw [e, Function.comp_apply, Ty.instantiate, instantiateAll_own e3 e4]
    rw [Frame.ty, this]
    exact hfree
  · intro d as ks hk k hk' e
    obtain ⟨_, hall⟩ := hS.constructors d as ks hk
    obtain ⟨i, hi⟩ := List.mem_iff_getElem?.1 hk'
    obtain ⟨c, hc, us, _, _, _, _, e5, _⟩ := hall i k hi
    rw [e5] at e
    exact hf (e ▸ List.mem_map.2 ⟨c, hc, rfl⟩)

/-- A definition that passes the termination check can be met. -/
theorem checked_definable {above : List EnvFact} {env : Env} {params : List String} {args : List Ty} {ret : Ty} {body : Value}
    (ok : Tidy above env) (hf : f ∉ env.names) (hp : ∀ p ∈ params, p ∉ env.types) (hd : params.Nodup)
    (hS : Describes S env f) (hv : ValueOk S args body ret) (ho : OwnCalls f params (Ty.functional args ret) body)
    (ht : body.terminates f args.length = some true) :
    Definable F env f params (Ty.genericizeAll params args) (ret.genericize params) (body.external f params) := by
  intro C θ hs
  have own : ∀ ts : List F.T, ts.length = params.length → F.tys (F.with_ θ (params.zip ts)) (params.map .arb) = ts := by
    intro ts hl
    rw [tys_map_arb, map_with θ hd hl]
  have key : ∀ ts : List F.T, ts.length = params.length →
      ∃ g, Solves F C (F.with_ θ (params.zip ts)) f ts args ret body g := by
    intro ts hl
    have hs' : Suits F C (F.with_ θ (params.zip ts)) env.consts := suits_agree ok (fun _ _ => rfl) (with_fresh hp) hs
    refine (solves_once (Suits.apart hS hf hs') hv (EachConst.mono (fun n ps t' h e => ?_) ho) ht).imp fun g hg => hg.1
    rw [if_pos e] at h
    exact ⟨by rw [h.1]; exact own ts hl, h.2⟩
  refine ⟨fun ts => if h : ts.length = params.length then Classical.choose (key ts h) else F.undef, fun ts hl => ?_⟩
  generalize hg : (fun ts => if h : ts.length = params.length then Classical.choose (key ts h) else F.undef) = g
  have e : g ts = Classical.choose (key ts hl) := by rw [← hg]; exact dif_pos hl
  obtain ⟨h1, h2⟩ := Classical.choose_spec (key ts hl)
  rw [← e] at h1 h2
  rw [tys_genericizeAll, ty_genericize]
  refine ⟨h1, fun xs hxs => ?_⟩
  rw [den_external _ _ _ ho, h2 xs hxs]
  refine den_own (f := f) (ts := ts) ?_ ?_ body args ret xs hv (EachConst.mono (fun n ps t' h e => ?_) ho)
  · rintro n us rfl rfl
    rw [put_own, setConst_self]
  · intro n us hn
    rw [put_other _ hn, setConst_other hn]
  · rw [if_pos e] at h
    rw [h.1]
    exact own ts hl

end
end Elab
end Acorn
