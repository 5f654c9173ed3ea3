/-
All statements, by induction.
-/
import Verif.Lemmas.ModuleSatisfy
import Verif.Lemmas.ModuleMatch
namespace Acorn
namespace Elab

open Spec Spec.Modules Classical

universe u

variable {F : Frame.{u}} {C C' : String → List F.T → F.D} {θ θ' : String → F.T}

/-- What has to be shown of a statement. -/
def StmtGood (F : Frame.{u}) (s : Stmt) : Prop :=
  ∀ above env env', addStmt env s = some env' → Elaborated F env s → Tidy above env →
    Grows above env env' ∧ Follows F above env env' (introduces s) ∧
      (¬ Assumes F env s → Possible F above env env' (introduces s))

mutual

theorem stmt_good (F : Frame.{u}) : ∀ s : Stmt, StmtGood F s
  | .claim v, _, _, _, he, hel, ok =>
    have h := claim_good he hel ok
    ⟨h.1, h.2.1, fun _ => h.2.2⟩
  | .theorem_ _ _ _ _ trusted b, _, _, _, he, hel, ok =>
    have h := theorem_good (body_good F b) he hel ok
    ⟨h.1, h.2.1, fun hna => h.2.2 (by
      cases trusted with
      | true => exact absurd rfl hna
      | false => rfl)⟩
  | .forall_ _ b, _, _, _, he, hel, ok =>
    have h := forall_good (body_good F b) he hel ok
    ⟨h.1, h.2.1, fun _ => h.2.2⟩
  | .if_ _ b els, _, _, _, he, hel, ok =>
    have h := if_good (body_good F b) (body_good F els) he hel ok
    ⟨h.1, h.2.1, fun _ => h.2.2⟩
  | .match_ _ arms, _, _, _, he, hel, ok =>
    have h := match_good (all_arms_good F arms) he hel ok
    ⟨h.1, h.2.1, fun _ => h.2.2⟩
  | .let_ _ _ _ _, _, _, _, he, hel, ok => let_good he hel ok
  | .define _ _ _ _ _, _, _, _, he, hel, ok => define_good he hel ok
  | .varSatisfy _ _ _, _, _, _, he, hel, ok =>
    have h := varSatisfy_good he hel ok
    ⟨h.1, h.2.1, fun _ => h.2.2⟩
  | .funSatisfy _ _ _ _ _ b, _, _, _, he, hel, ok =>
    have h := funSatisfy_good (body_good F b) he hel ok
    ⟨h.1, h.2.1, fun _ => h.2.2⟩

theorem body_good (F : Frame.{u}) : ∀ b : Body, BodyGood F b
  | .nil, _, _, _, he, _, ok => by
    simp only [addBody, Option.some.injEq] at he
    subst he
    exact ⟨Grows.refl ok, fun C θ h _ => ⟨C, fun _ _ => rfl, h⟩⟩
  | .cons s b, above, env, env', he, hel, ok => by
    simp only [addBody, Option.bind_eq_bind, Option.bind_eq_some_iff] at he
    obtain ⟨env1, h1, h2⟩ := he
    unfold ElaboratedBody at hel
    obtain ⟨hs, hna, hrest⟩ := hel
    obtain ⟨g1, f1, p1⟩ := stmt_good F s above env env1 h1 hs ok
    obtain ⟨g2, e2⟩ := body_good F b above env1 env' h2 (hrest env1 h1) g1.tidy
    exact ⟨g1.trans g2, Extendable.trans g1 g2 (Possible.extendable ok f1 (p1 hna)) e2⟩

theorem all_arms_good (F : Frame.{u}) : ∀ arms : Arms, ArmsGood F arms
  | .nil => trivial
  | .cons _ _ _ _ b rest => ⟨body_good F b, all_arms_good F rest⟩

end

/-- The facts of a module follow from what it assumes. -/
theorem module_follows {above : List EnvFact} : ∀ (b : Body) (env env' : Env), addBody env b = some env' →
    ElaboratedModule F env b → Tidy above env → Grows above env env' ∧
    ∀ C θ, Fulfils F C θ above env → Suits F C θ env'.consts → GoalsValid F above env' → AllHold F C θ (assumed env b) →
      Fulfils F C θ above env'
  | .nil, env, env', he, _, ok => by
    simp only [addBody, Option.some.injEq] at he
    subst he
    exact ⟨Grows.refl ok, fun C θ h _ _ _ => h⟩
  | .cons s b, env, env', he, hel, ok => by
    simp only [addBody, Option.bind_eq_bind, Option.bind_eq_some_iff] at he
    obtain ⟨env1, h1, h2⟩ := he
    unfold ElaboratedModule at hel
    obtain ⟨hs, hrest⟩ := hel
    obtain ⟨g1, f1, _⟩ := stmt_good F s above env env1 h1 hs ok
    obtain ⟨g2, f2⟩ := module_follows b env1 env' h2 (hrest env1 h1) g1.tidy
    refine ⟨g1.trans g2, fun C θ hC hsu hg hass => ?_⟩
    unfold assumed at hass
    rw [h1] at hass
    simp only at hass
    obtain ⟨ha1, ha2⟩ := AllHold.append.1 hass
    obtain ⟨ns, hns⟩ := g2.nodes
    refine f2 C θ (f1 C θ hC (Suits.subset hsu g2.consts) (GoalsValid.before hns hg) fun e => ?_) hsu hg ha2
    rwa [if_pos e] at ha1

end Elab
end Acorn
