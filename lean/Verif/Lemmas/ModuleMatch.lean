/-
Match statements.
-/
import Mathlib.Data.List.Perm.Subperm
import Verif.Lemmas.ModuleBlocks
import Verif.Lemmas.Datatypes
namespace Acorn
namespace Elab

open Spec Spec.Modules Classical

universe u

variable {F : Frame.{u}} {C C' : String → List F.T → F.D} {θ θ' : String → F.T}

/-- The value is made by the constructors of number `i`. -/
def MadeBy (F : Frame.{u}) (C : String → List F.T → F.D) (θ : String → F.T) (known : List EnvConst) (s : Value)
    (d : String) (ps : List Ty) (total i : Nat) : Prop :=
  ∀ c ∈ known, c.con = some (d, i, total) → (F.tys θ ps).length = c.params.length →
    ∀ us, c.ty = Ty.functional us (.data d (c.params.map .tvar)) →
      ∃ xs, F.Fits xs (F.tys (F.with_ θ (c.params.zip (F.tys θ ps))) us) ∧
        F.appN (C c.name (F.tys θ ps)) xs = F.den C θ [] s

theorem isBlock_arm (env : Env) (args : List (String × Ty)) : IsBlock env [] args id
    (args.foldl (fun e a => e.addConst { name := a.1, params := [], ty := a.2 }) (env.child [] [])) := by
  have := fold_rest id args (env.child [] [])
  refine ⟨this.2, this.1, env.child [] [], rfl, rfl⟩

section arm

variable {above : List EnvFact} {env sub : Env} {s con v : Value} {d : String} {ps : List Ty} {total index : Nat}
  {args : List (String × Ty)} {b : Body}

/-- What one case exports follows when the value is made by its constructor. -/
theorem arm_good (good : BodyGood F b) (ok : Tidy above env) (hs : InScope env [] s) (hargs : env.argsOk args = true)
    (hcon : ∃ c ∈ env.consts, c.con = some (d, index, total) ∧ ps.length = c.params.length ∧
        ∃ us t, c.ty = Ty.functional us (.data d (c.params.map .tvar)) ∧ con = .const c.name ps t ∧
          args.map (·.2) = Ty.instantiateAll (c.params.zip ps) us ∧ InScope env [] con)
    (ha : ∀ a ∈ args, TypeInScope env [] a.2)
    (hbody : ElaboratedBody F ((args.foldl (fun e a => e.addConst { name := a.1, params := [], ty := a.2 })
      (env.child [] [])).addPremise (bindBlock [] (.bin .equals s (con.apply (args.map fun a => .const a.1 [] a.2))))) b)
    (hplain : EndsPlain ((args.foldl (fun e a => e.addConst { name := a.1, params := [], ty := a.2 })
      (env.child [] [])).addPremise (bindBlock [] (.bin .equals s (con.apply (args.map fun a => .const a.1 [] a.2))))) b)
    (hsub : addBody ((args.foldl (fun e a => e.addConst { name := a.1, params := [], ty := a.2 })
      (env.child [] [])).addPremise (bindBlock [] (.bin .equals s (con.apply (args.map fun a => .const a.1 [] a.2))))) b =
        some sub)
    (hv : env.exported sub [] = some v) :
    InScope env [] v ∧ ∀ C θ, Fulfils F C θ above env → GoalsValid F (above ++ nodeFacts env.nodes) sub →
      MadeBy F C θ env.consts s d ps total index → F.Holds C θ [] v := by
  obtain ⟨hf, hd⟩ := argsOk_spec hargs
  have hb := isBlock_arm env args
  obtain ⟨c, hc, hcc, hpl, us, t, hcty, rfl, hat, hsc⟩ := hcon
  generalize hin : args.foldl (fun e a => e.addConst { name := a.1, params := [], ty := a.2 }) (env.child [] []) = inner at *
  have hprem : InScope inner [] (.bin .equals s ((Value.const c.name ps t).apply (args.map fun a => .const a.1 [] a.2))) := by
    refine ⟨hb.scope hf hs, Within.apply (hb.scope hf hsc) (WithinAll.of fun w hw => ?_)⟩
    obtain ⟨a, ha', rfl⟩ := List.mem_map.1 hw
    refine ⟨hb.knownArg (List.mem_map.2 ⟨a, ha', rfl⟩), fun n hn => by simp [tysNames] at hn, fun n hn => ?_⟩
    have := ha a ha' n hn
    simpa [hb.typesEq] using this
  have hns : ∀ f ∈ nodeFacts [.structural (.prop [] (bindBlock []
      (.bin .equals s ((Value.const c.name ps t).apply (args.map fun a => .const a.1 [] a.2)))))],
      FactInScope inner f := by
    intro f hf'
    rw [nodeFacts_one, nodeFact, List.mem_singleton] at hf'
    subst hf'
    exact Within.arbitrary (Within.bind (WithinAll.of fun w hw => by simp [argValues] at hw) 0 0 hprem)
  obtain ⟨gr, ok0, run⟩ := block_run good hb _ ok hf (fun p hp => by simp at hp) (fun θ t => rfl)
    (fun n t h => h) ha hns rfl hsub hbody
  have hk : ∀ n ∈ env.names, ∀ k, Known sub n k → Known env n k := by
    intro n hn k hk
    obtain ⟨c, hc, e⟩ := hk
    refine ⟨c, ?_, e⟩
    rw [gr.find n (hb.names hf (List.mem_append_left _ hn))] at hc
    exact (hb.find hf hn) ▸ hc
  have hex := exported_spec (F := F) hv gr.tidy (by rw [gr.types]; exact (hb.typesEq.trans (List.append_nil _)))
    (fun a ha => by simp at ha) (fun a ha => by simp at ha) hk (hplain sub hsub)
  refine ⟨hex.1, fun C θ hC hgv hmade => hex.2 C θ fun zs hzs => ?_⟩
  obtain ⟨xs, hxs, he⟩ := hmade c hc hcc (by rw [tys_length]; exact hpl) us hcty
  rw [← tys_inst, ← hat] at hxs
  have hpx : AllHold F (pinned F C (args.map (·.1)) xs) (F.with_ θ (([] : List String).zip []))
      (nodeFacts [.structural (.prop [] (bindBlock []
        (.bin .equals s ((Value.const c.name ps t).apply (args.map fun a => .const a.1 [] a.2)))))]) := by
    rw [nodeFacts_one, nodeFact, AllHold.one]
    intro ts hl
    have : ts = [] := List.length_eq_zero_iff.1 hl
    subst this
    show F.den (pinned F C (args.map (·.1)) xs) θ [] _ = F.tt
    rw [den_bindBlock [] (Within.bound hprem)]
    refine (holds_bin θ [] .equals s _).2 ?_
    show F.den _ θ [] s = F.den _ θ [] _
    rw [den_apply, denAll_consts θ [] (fun a => a.2) args, pinned_args hd hxs]
    rw [den_scope0 (C' := C) (θ' := θ) [] hs (fun n hn => pinned_out (fresh_names hf hn)) (fun _ _ => rfl)]
    rw [← he]
    show _ = F.appN (pinned F C (args.map (·.1)) xs c.name (F.tys θ ps)) xs
    rw [pinned_out (fresh_names hf (List.mem_map.2 ⟨c, hc, rfl⟩))]
  obtain ⟨C2, h2, h3⟩ := run C θ hC [] rfl xs hxs hpx hgv
  refine ⟨C2, fun n hn => ?_, h3.suits, (AllHold.append.1 h3.facts).2⟩
  simp only [List.map_nil, List.append_nil] at hn
  rw [← h2 n (hb.names hf (List.mem_append_left _ hn)), pinned_out (fresh_names hf hn), pinned_out (by simp)]

end arm

/-- The bodies of all cases are good. -/
def ArmsGood (F : Frame.{u}) : Arms → Prop
  | .nil => True
  | .cons _ _ _ _ b rest => BodyGood F b ∧ ArmsGood F rest

theorem arms_addNode {env : Env} {s : Value} {d : String} {ps : List Ty} {total : Nat} (node : EnvNode) :
    ∀ arms : Arms, ElaboratedArms F env s d ps total arms → ElaboratedArms F (env.addNode node) s d ps total arms
  | .nil, _ => by unfold ElaboratedArms; trivial
  | .cons con index n args body rest, h => by
    unfold ElaboratedArms at h ⊢
    obtain ⟨h1, h2, h3, h4, h5, h6⟩ := h
    exact ⟨h1, h2, h3, h4, h5, arms_addNode node rest h6⟩

/-- What has been done before a case. -/
structure ArmsDone (F : Frame.{u}) (above : List EnvFact) (env : Env) (s : Value) (d : String) (ps : List Ty)
    (total : Nat) (indices : List Nat) (disjuncts : List Value) : Prop where
  nodup : indices.Nodup
  small : ∀ i ∈ indices, i < total
  scope : ∀ v ∈ disjuncts, InScope env [] v
  holds : ∀ i ∈ indices, ∃ v ∈ disjuncts, ∀ C θ, Fulfils F C θ above env → GoalsValid F above env →
    MadeBy F C θ env.consts s d ps total i → F.Holds C θ [] v

theorem all_indices {indices : List Nat} {total : Nat} (hn : indices.Nodup) (hs : ∀ i ∈ indices, i < total)
    (hl : indices.length = total) : ∀ i < total, i ∈ indices := by
  have h : indices.Subperm (List.range total) := List.subperm_of_subset hn fun i hi => List.mem_range.2 (hs i hi)
  intro i hi
  exact (h.perm_of_length_le (by rw [List.length_range, hl]; exact Nat.le_refl _)).mem_iff.2 (List.mem_range.2 hi)

theorem arms_good {above : List EnvFact} {s : Value} {d : String} {ps : List Ty} {total count : Nat} :
    ∀ (arms : Arms) (env env' : Env) (indices : List Nat) (disjuncts : List Value), ArmsGood F arms →
      addArms env s count indices disjuncts arms = some env' → ElaboratedArms F env s d ps total arms →
      Tidy above env → InScope env [] s → Typed F env.consts [] s (.data d ps) →
      ArmsDone F above env s d ps total indices disjuncts →
      Grows above env env' ∧ Follows F above env env' false ∧ env'.consts = env.consts
  | .nil, _, _, _, _, _, he, _, _, _, _, _ => by simp [addArms] at he
  | .cons con index n args body rest, env, env', indices, disjuncts, good, he, hel, ok, hs, hty, done => by
    unfold addArms at he
    unfold ElaboratedArms at hel
    obtain ⟨rfl, hidx, hcon, ha, ⟨hbody, hplain⟩, hrest⟩ := hel
    rw [Option.ite_none_left_eq_some] at he
    obtain ⟨hcond, he⟩ := he
    simp only [Bool.or_eq_true, not_or, Bool.not_eq_true, Bool.not_eq_false', List.contains_eq_mem,
      decide_eq_false_iff_not] at hcond
    obtain ⟨hargs, hni⟩ := hcond
    simp only [Option.bind_eq_bind] at he
    obtain ⟨sub, hsub, he⟩ := Option.bind_eq_some_iff.1 he
    obtain ⟨v, hv, he⟩ := Option.bind_eq_some_iff.1 he
    obtain ⟨hvs, hvh⟩ := arm_good good.1 ok hs hargs hcon ha hbody hplain hsub hv
    have hnd : (indices ++ [index]).Nodup := by
      refine List.nodup_append.2 ⟨done.nodup, by simp, ?_⟩
      intro i hi j hj e
      rw [List.mem_singleton.1 hj] at e
      exact hni (e ▸ hi)
    have hsm : ∀ i ∈ indices ++ [index], i < n := by
      intro i hi
      rcases List.mem_append.1 hi with hi | hi
      · exact done.small i hi
      · rw [List.mem_singleton.1 hi]; exact hidx
    -- in an environment with the block of this case
    have next : ∀ {o : Option EnvFact} {env1 : Env}, env1 = env.addNode (.block sub.nodes o) → ∀ i ∈ indices ++ [index],
        ∃ w ∈ disjuncts ++ [v], ∀ C θ, Fulfils F C θ above env → GoalsValid F above env1 →
          MadeBy F C θ env.consts s d ps n i → F.Holds C θ [] w := by
      intro o env1 e1 i hi
      subst e1
      rcases List.mem_append.1 hi with hi | hi
      · obtain ⟨w, hw, hh⟩ := done.holds i hi
        exact ⟨w, List.mem_append_left _ hw, fun C θ hC hg hm =>
          hh C θ hC (GoalsValid.before (ns := [.block sub.nodes o]) rfl hg) hm⟩
      · rw [List.mem_singleton.1 hi]
        refine ⟨v, by simp, fun C θ hC hg hm => hvh C θ hC (fun g hg' => ?_) hm⟩
        exact GoalsValid.new (env := env) (ns := [.block sub.nodes o]) rfl hg g (by simp [goalsAt, goalsOf, hg'])
    have hscs : ∀ w ∈ disjuncts ++ [v], InScope env [] w := by
      intro w hw
      rcases List.mem_append.1 hw with hw | hw
      · exact done.scope w hw
      · rw [List.mem_singleton.1 hw]; exact hvs
    split at he
    · next hlen =>
      have hall := all_indices hnd hsm (by simp [hlen])
      split at he
      · -- the remaining cases cannot be new
        exfalso
        cases rest with
        | nil => simp [addArms] at he
        | cons con' index' n' args' body' rest' =>
          unfold addArms at he
          unfold ElaboratedArms at hrest
          rw [Option.ite_none_left_eq_some] at he
          have := he.1
          simp only [Bool.or_eq_true, not_or, Bool.not_eq_true, List.contains_eq_mem,
            decide_eq_false_iff_not] at this
          exact this.2 (hall index' (hrest.2.1))
      · obtain ⟨w, hw, he⟩ := Option.bind_eq_some_iff.1 he
        simp only [Option.pure_def, Option.some.injEq] at he
        subst he
        refine ⟨grows_addNode ok ?_, ?_, rfl⟩
        · intro f hf
          rw [nodeFact, List.mem_singleton] at hf
          subst hf
          exact Within.reduce hscs hw
        · intro C θ hC _ hg _
          refine fulfils_nodes (env := env) (ns := [.block sub.nodes (some (.prop [] w))]) rfl rfl hC ?_
          rw [nodeFacts_one, nodeFact, AllHold.one]
          intro ts hl
          have : ts = [] := List.length_eq_zero_iff.1 hl
          subst this
          show F.Holds C θ [] w
          rw [holds_reduce_or θ [] hw]
          obtain ⟨c, hc, hcc, hcl, _⟩ := hcon
          obtain ⟨i, hi, hm⟩ := Suits.covered hC.suits d n (F.tys θ ps) ⟨c, hc, ⟨index, hcc⟩, by rw [tys_length, hcl]⟩ (F.den C θ [] s)
            (hty C θ [] hC.suits trivial)
          obtain ⟨u, hu, hh⟩ := next (o := some (.prop [] w)) rfl i (hall i hi)
          exact ⟨u, hu, hh C θ hC hg hm⟩
    · have g1 := addNode_good (F := F) (node := .block sub.nodes none) ok (fun f hf => by simp [nodeFact] at hf)
        (fun C θ _ _ => AllHold.nil)
      have back : ∀ C θ, Fulfils F C θ above (env.addNode (.block sub.nodes none)) → Fulfils F C θ above env := by
        intro C θ h
        refine ⟨h.suits, ?_, h.theorems⟩
        have := h.facts
        rwa [show nodeFacts (env.addNode (.block sub.nodes none)).nodes = nodeFacts env.nodes by
          simp [Env.addNode, nodeFacts_append, nodeFacts, nodeFact]] at this
      obtain ⟨h1, h2, h3⟩ := arms_good rest (env.addNode (.block sub.nodes none)) env' _ _ good.2 he
        (arms_addNode _ rest hrest) g1.1.tidy hs hty ⟨hnd, hsm, hscs, fun i hi => by
          obtain ⟨w, hw, hh⟩ := next (o := none) rfl i hi
          exact ⟨w, hw, fun C θ hC hg hm => hh C θ (back C θ hC) hg hm⟩⟩
      exact ⟨g1.1.trans h1, Follows.trans (e2 := env.addNode (.block sub.nodes none)) rfl h3 h1 g1.2.1 h2, h3⟩

theorem match_good {arms : Arms} (good : ArmsGood F arms) {above : List EnvFact} {env env' : Env} {s : Value}
    (he : addStmt env (.match_ s arms) = some env') (hel : Elaborated F env (.match_ s arms)) (ok : Tidy above env) :
    Grows above env env' ∧ Follows F above env env' false ∧ Possible F above env env' false := by
  unfold addStmt at he
  obtain ⟨d, ps, total, hs, hty, harms⟩ := hel
  obtain ⟨h1, h2, h3⟩ := arms_good arms env env' [] [] good he harms ok hs hty
    ⟨by simp, by simp, by simp, by simp⟩
  exact ⟨h1, h2, possible_same h3⟩

end Elab
end Acorn
