/-
Theorem statements.
-/
import Verif.Lemmas.ModuleBlocks
namespace Acorn
namespace Elab

open Spec Spec.Modules Classical

universe u

variable {F : Frame.{u}} {C C' : String → List F.T → F.D} {θ θ' : String → F.T}

/-- The node with the theorem's own definition. -/
def nameNodes (name : Option String) (params : List String) (args : List (String × Ty)) (claim : Value) : List EnvNode :=
  match name with
  | none => []
  | some n => [.structural (.defn n params (Ty.functional (args.map (·.2)) .bool) (Value.mkLam (args.map (·.2)) claim))]

/-- The node with the theorem's premise. -/
def premiseNodes (args : List (String × Ty)) (claim : Value) : List EnvNode :=
  match (splitClaim claim).1 with
  | none => []
  | some p => [.structural (.prop [] (bindBlock args p.toArbitrary))]

/-- The new constant is found. -/
theorem find_new {consts : List EnvConst} {c : EnvConst} (h : c.name ∉ consts.map (·.name)) :
    (consts ++ [c]).find? (fun d => d.name == c.name) = some c := by
  rw [List.find?_append]
  rw [show consts.find? (fun d => d.name == c.name) = none by
    rw [List.find?_eq_none]
    intro d hd e
    simp only [beq_iff_eq] at e
    exact h (List.mem_map.2 ⟨d, hd, e⟩)]
  simp

theorem theoremBlock_eq {env env1 : Env} {name : Option String} {params : List String} {args : List (String × Ty)}
    {claim : Value} (he : env1 = env.declareTheorem name params args claim) (hn : ∀ n, name = some n → n ∉ env.names)
    (hf : ∀ a ∈ args, a.1 ∉ env1.names) :
    env1.theoremBlock name params args claim = { env1.child params args with
      nodes := (env1.child params args).nodes ++ (nameNodes name params args claim ++ premiseNodes args claim) } := by
  have hb := isBlock_child env1 params args
  cases name with
  | none =>
    unfold Env.theoremBlock premiseNodes
    cases (splitClaim claim).1 with
    | none => simp [nameNodes]
    | some p => simp [nameNodes, Env.addPremise, Env.addNode]
  | some n =>
    have hfr := hn n rfl
    have hc1 : env1.consts = env.consts ++ [theoremConst n params args claim] := by
      rw [he]; exact addConst_fresh (c := theoremConst n params args claim) hfr
    have hm : n ∈ env1.names := List.mem_map.2 ⟨theoremConst n params args claim, by rw [hc1]; simp, rfl⟩
    have h1 := hb.find hf hm
    have h2 : env1.consts.find? (fun c => c.name == n) = some (theoremConst n params args claim) := by
      rw [hc1]; exact find_new (c := theoremConst n params args claim) hfr
    have h3 := h1.trans h2
    unfold Env.theoremBlock premiseNodes
    simp only [h3]
    cases (splitClaim claim).1 with
    | none => simp [nameNodes, Env.addDefinition, Env.addNode, theoremConst]
    | some p => simp [nameNodes, Env.addPremise, Env.addDefinition, Env.addNode, theoremConst]

theorem splitClaim_scope {env : Env} {params : List String} {claim : Value} (h : InScope env params claim) :
    InScope env params (splitClaim claim).2 ∧ ∀ p, (splitClaim claim).1 = some p → InScope env params p := by
  unfold splitClaim
  split
  · exact ⟨h.2, fun p e => (Option.some.inj e) ▸ h.1⟩
  · exact ⟨h, fun p e => by cases e⟩

theorem splitClaim_holds {st : List F.D} {claim : Value}
    (h : (∀ p, (splitClaim claim).1 = some p → F.Holds C θ st p) → F.Holds C θ st (splitClaim claim).2) :
    F.Holds C θ st claim := by
  unfold splitClaim at h
  split at h
  · exact (holds_bin ..).2 fun hp => h fun p e => (Option.some.inj e) ▸ hp
  · exact h fun p e => by cases e

/-- The proof of a theorem proves it. -/
theorem proof_good {b : Body} (good : BodyGood F b) {above : List EnvFact} {env env1 sub sub' : Env} {name : Option String}
    {params : List String} {args : List (String × Ty)} {claim : Value}
    (he : env1 = env.declareTheorem name params args claim) (hn : ∀ n, name = some n → n ∉ env.names)
    (ok : Tidy above env1) (hf : ∀ a ∈ args, a.1 ∉ env1.names) (hd : (args.map (·.1)).Nodup)
    (hp : ∀ p ∈ params, p ∉ env1.types) (ha : ∀ a ∈ args, TypeInScope env1 params a.2) (hcl : InScope env1 params claim)
    (hsub : addBody (env1.theoremBlock name params args claim) b = some sub)
    (hgoal : sub.addGoal (bindBlock args (splitClaim claim).2.toArbitrary) = some sub')
    (hel : ElaboratedBody F (env1.theoremBlock name params args claim) b)
    (hC : Fulfils F C θ above env1)
    (hnamed : ∀ n, name = some n → ∀ ts, ts.length = params.length →
      C n ts = F.den C (F.with_ θ (params.zip ts)) [] (Value.mkLam (args.map (·.2)) claim))
    (hgv : GoalsValid F (above ++ nodeFacts env1.nodes) sub') :
    FactHolds F C θ (.prop params (Value.mkAll (args.map (·.2)) claim)) := by
  have hb := isBlock_child env1 params args
  have hname : ∀ n, name = some n → n ∈ env1.names := by
    intro n e
    subst e
    rw [he]
    refine List.mem_map.2 ⟨theoremConst n params args claim, ?_, rfl⟩
    show _ ∈ (env.addConst (theoremConst n params args claim)).consts
    rw [addConst_fresh (hn n rfl)]
    simp
  have hlam : InScope env1 params (Value.mkLam (args.map (·.2)) claim) := Within.mkLam (args_scope ha) hcl
  unfold Env.addGoal at hgoal
  split at hgoal
  · cases hgoal
  simp only [Option.some.injEq] at hgoal
  subst hgoal
  have hsc : ∀ f ∈ nodeFacts (nameNodes name params args claim ++ premiseNodes args claim),
      FactInScope (env1.child params args) f := by
    intro f hfm
    rw [nodeFacts_append, List.mem_append] at hfm
    rcases hfm with hfm | hfm
    · unfold nameNodes at hfm
      cases name with
      | none => simp [nodeFacts] at hfm
      | some n =>
        simp only [nodeFacts, nodeFact, List.append_nil, List.mem_singleton] at hfm
        subst hfm
        refine ⟨hb.names hf (List.mem_append_left _ (hname n rfl)), ?_⟩
        refine Within.mono (fun n k hk => hb.known (fresh_names hf hk.mem) hk) (fun n hn => ?_) hlam
        rw [hb.typesEq]
        simp only [List.mem_append] at hn ⊢
        rcases hn with h | h
        · exact Or.inl h
        · exact Or.inr (Or.inl h)
    · unfold premiseNodes at hfm
      cases hs : (splitClaim claim).1 with
      | none => rw [hs] at hfm; simp [nodeFacts] at hfm
      | some p =>
        rw [hs] at hfm
        simp only [nodeFacts, nodeFact, List.append_nil, List.mem_singleton] at hfm
        subst hfm
        exact bindBlock_scope hb hf ha (Within.arbitrary ((splitClaim_scope hcl).2 p hs))
  obtain ⟨gr, ok0, run⟩ := block_run good hb (nameNodes name params args claim ++ premiseNodes args claim) ok hf hp
    (fun θ t => ty_toArbitrary θ t) (fun n t => (names_toArbitrary n t).1) ha hsc (theoremBlock_eq he hn hf) hsub hel
  · intro ts hl
    rw [den_mkAll]
    intro xs hxs
    rw [List.nil_append]
    refine splitClaim_holds fun hprem => ?_
    have hall : AllHold F (pinned F C (args.map (·.1)) xs) (F.with_ θ (params.zip ts))
        (nodeFacts (nameNodes name params args claim ++ premiseNodes args claim)) := by
      rw [nodeFacts_append]
      refine AllHold.append.2 ⟨?_, ?_⟩
      · unfold nameNodes
        cases name with
        | none => exact AllHold.nil
        | some n =>
          simp only
          rw [nodeFacts_one, nodeFact, AllHold.one]
          intro us hus
          rw [pinned_out (fresh_names hf (hname n rfl)), hnamed n rfl us hus]
          exact den_scope [] hlam hus (fun m hm => (pinned_out (fresh_names hf hm)).symm) (with_fresh hp)
      · unfold premiseNodes
        cases hs : (splitClaim claim).1 with
        | none => exact AllHold.nil
        | some p =>
          simp only
          rw [nodeFacts_one, nodeFact, AllHold.one]
          intro us hus
          have : us = [] := List.length_eq_zero_iff.1 hus
          subst this
          have hps := (splitClaim_scope hcl).2 p hs
          show F.den _ (F.with_ θ (params.zip ts)) [] _ = F.tt
          rw [bindBlock_den hf hd (Within.arbitrary hps) hl hxs [] (fun _ _ => rfl), den_toArbitrary, List.append_nil]
          exact hprem p hs
    obtain ⟨C2, h2, h3⟩ := run C θ hC ts hl xs hxs hall
      (GoalsValid.before (env := sub) (env' := sub.addNode _) (ns := [_]) rfl hgv)
    have hg := hgv ⟨(above ++ nodeFacts env1.nodes) ++ nodeFacts sub.nodes, sub.consts,
      bindBlock args (splitClaim claim).2.toArbitrary⟩ (by
        simp [Env.addNode, goalsAt_append, goalsAt, goalsOf]) C2 _ h3.suits h3.facts
    unfold Frame.Holds at hg
    rw [bindBlock_den hf hd (Within.arbitrary (splitClaim_scope hcl).1) hl hxs []
      (fun n hn => h2 n (hb.names hf hn)), den_toArbitrary, List.append_nil] at hg
    exact hg

/-! ### The name of a theorem -/

theorem mark_fresh {consts : List EnvConst} {c : EnvConst} (h : c.name ∉ consts.map (·.name)) :
    (consts ++ [c]).map (fun d => if d.name = c.name then { d with isTheorem := true } else d) =
      consts ++ [{ c with isTheorem := true }] := by
  rw [List.map_append]
  congr 1
  · refine (List.map_congr_left fun d hd => ?_).trans (List.map_id _)
    rw [if_neg]
    · rfl
    · intro e
      exact h (List.mem_map.2 ⟨d, hd, e⟩)
  · simp

/-- What adding a theorem does, when the theorem holds. -/
theorem named_good {above : List EnvFact} {env env' : Env} {n : String} {params : List String} {args : List (String × Ty)}
    {claim : Value} {node : EnvNode} {trusted : Bool} (ok : Tidy above env) (hfr : n ∉ env.names)
    (hc : env'.consts = env.consts ++ [{ theoremConst n params args claim with isTheorem := true }])
    (ht : env'.types = env.types) (hn : env'.nodes = env.nodes ++ [node])
    (hnode : nodeFact node = [.prop params (Value.mkAll (args.map (·.2)) claim)])
    (hp : ∀ p ∈ params, p ∉ env.types) (ha : ∀ a ∈ args, TypeInScope env params a.2) (hcl : InScope env params claim)
    (hty : Typed F env.consts (args.map (·.2)) claim .bool)
    (hfact : ∀ C θ, Fulfils F C θ above env → Suits F C θ env'.consts →
      (∀ g ∈ goalsOf (above ++ nodeFacts env.nodes) node, g.Valid F) →
      (trusted = true → FactHolds F C θ (.prop params (Value.mkAll (args.map (·.2)) claim))) →
      FactHolds F C θ (.prop params (Value.mkAll (args.map (·.2)) claim))) :
    Grows above env env' ∧ Follows F above env env' trusted ∧ (trusted = false → Possible F above env env' trusted) := by
  have hlam : InScope env params (Value.mkLam (args.map (·.2)) claim) := Within.mkLam (args_scope ha) hcl
  refine ⟨?_, ?_, ?_⟩
  · refine grows_append ok hc ht hn ?_ ?_ ?_
    · intro c hm
      rw [List.mem_singleton.1 hm]
      exact functional_scope ha fun n hn => by simp [tyNames] at hn
    · intro c hm d hd
      rw [List.mem_singleton.1 hm] at hd ⊢
      cases hd
      exact scope_append hc ht hlam
    · intro f hf
      rw [nodeFacts_one, hnode, List.mem_singleton] at hf
      subst hf
      exact scope_append hc ht (Within.mkAll (args_scope ha) hcl)
  · refine follows_of hn fun C θ hf hs hg hi => ?_
    rw [nodeFacts_one, hnode, AllHold.one] at hi ⊢
    have hfh := hfact C θ hf hs (fun g hg' => hg g (by simp [goalsAt, hg'])) hi
    refine ⟨hfh, ?_⟩
    intro c hm hth us hus ts hl xs hxs
    rw [hc] at hm
    rcases List.mem_append.1 hm with hm' | hm'
    · exact hf.theorems c hm' hth us hus ts hl xs hxs
    · have e := hs.named c (by rw [hc]; exact hm)
      rw [List.mem_singleton.1 hm'] at hus hl hxs e ⊢
      have hus' := functional_inj_bool hus
      subst hus'
      have := e rfl _ rfl ts hl
      rw [this, den_mkLam, appN_lamN hxs]
      exact (den_mkAll _ _ _ _).1 (hfh ts hl) xs hxs
  · intro htr C θ hf _
    subst htr
    have hag : ∀ m ∈ env.names, C m = setConst F C n
        (fun ts => F.den C (F.with_ θ (params.zip ts)) [] (Value.mkLam (args.map (·.2)) claim)) m := by
      intro m hm
      rw [setConst_other]
      rintro rfl
      exact hfr hm
    refine ⟨_, hag, ?_, fun e => by cases e⟩
    rw [hc]
    refine suits_add (suits_agree ok hag (fun _ _ => rfl) hf.suits) ?_ ?_ ?_
    · intro c hm ts hl
      rw [List.mem_singleton.1 hm] at hl ⊢
      show F.mem (setConst F C n _ n ts) _
      rw [setConst_self]
      exact typed_lam hty C _ [] (suits_agree ok (fun _ _ => rfl) (with_fresh hp) hf.suits) trivial
    · intro c hm _ d hd ts hl
      rw [List.mem_singleton.1 hm] at hl hd ⊢
      cases hd
      show setConst F C n _ n ts = _
      rw [setConst_self]
      exact den_scope [] hlam hl hag (fun _ _ => rfl)
    · intro c hm
      rw [List.mem_singleton.1 hm]
      rfl

theorem suits_unmark {known : List EnvConst} {c : EnvConst} (h : Suits F C θ (known ++ [{ c with isTheorem := true }]))
    (hc : c.isTheorem = false) (hcon : c.con = none) : Suits F C θ (known ++ [c]) := by
  refine suits_add (Suits.subset h fun c hc => List.mem_append_left _ hc) ?_ ?_ ?_
  · intro d hd
    rw [List.mem_singleton.1 hd]
    exact h.typed { c with isTheorem := true } (by simp)
  · intro d hd e
    rw [List.mem_singleton.1 hd, hc] at e
    cases e
  · intro d hd
    rw [List.mem_singleton.1 hd]
    exact hcon

theorem theorem_good {b : Body} (good : BodyGood F b) {above : List EnvFact} {env env' : Env} {name : Option String}
    {params : List String} {args : List (String × Ty)} {claim : Value} {trusted : Bool}
    (he : addStmt env (.theorem_ name params args claim trusted b) = some env')
    (hel : Elaborated F env (.theorem_ name params args claim trusted b)) (ok : Tidy above env) :
    Grows above env env' ∧ Follows F above env env' trusted ∧ (trusted = false → Possible F above env env' trusted) := by
  unfold addStmt at he
  obtain ⟨ha, hcl, hty, hcit, hbody⟩ := hel
  rw [Option.ite_none_left_eq_some] at he
  obtain ⟨hcond, he⟩ := he
  simp only [Bool.or_eq_true, not_or, Bool.not_eq_true, Bool.not_eq_false'] at hcond
  obtain ⟨⟨⟨hn0, hp⟩, hargs⟩, _⟩ := hcond
  obtain ⟨hp, _⟩ := paramsOk_spec hp
  obtain ⟨hf, hd⟩ := argsOk_spec hargs
  -- a citation holds
  have hcited : env.isCitation claim = true → ∀ C θ, Fulfils F C θ above env →
      FactHolds F C θ (.prop params (Value.mkAll (args.map (·.2)) claim)) := by
    intro hc C θ hC ts hl
    rw [den_mkAll]
    intro xs hxs
    have h1 := suits_agree (θ' := F.with_ θ (params.zip ts)) ok (fun _ _ => rfl) (with_fresh hp) hC.suits
    have h2 := theorems_agree (θ' := F.with_ θ (params.zip ts)) ok (fun _ _ => rfl) (with_fresh hp) hC.theorems
    exact cited hcit hc h1 h2 hxs
  cases name with
  | some n =>
    simp only [Bool.or_eq_false_iff] at hn0
    have hfr := inUse_fresh hn0.1
    have hna : ∀ a ∈ args, a.1 ≠ n := by
      rintro a ha' rfl
      have := hn0.2
      simp only [List.contains_eq_mem, decide_eq_false_iff_not] at this
      exact this (List.mem_map.2 ⟨a, ha', rfl⟩)
    have hc1 : (env.declareTheorem (some n) params args claim).consts = env.consts ++ [theoremConst n params args claim] :=
      addConst_fresh (c := theoremConst n params args claim) hfr
    have fin : ∀ node, ((env.declareTheorem (some n) params args claim).finishTheorem (some n) node).consts =
        env.consts ++ [{ theoremConst n params args claim with isTheorem := true }] := by
      intro node
      show ((env.declareTheorem (some n) params args claim).consts).map _ = _
      rw [hc1]
      exact mark_fresh (c := theoremConst n params args claim) hfr
    split at he
    · next htc =>
      simp only [Option.some.injEq] at he
      subst he
      refine named_good ok hfr (fin _) rfl rfl rfl hp ha hcl hty fun C θ hC _ _ hi => ?_
      cases trusted with
      | true => exact hi rfl
      | false => exact hcited (by simpa using htc) C θ hC
    · next htc =>
      simp only [Option.bind_eq_bind, Option.bind_eq_some_iff, Option.pure_def, Option.some.injEq] at he
      obtain ⟨sub, hsub, sub', hgoal, rfl⟩ := he
      refine named_good ok hfr (fin _) rfl rfl rfl hp ha hcl hty fun C θ hC hs hg _ => ?_
      rw [fin] at hs
      have ok1 : Tidy above (env.declareTheorem (some n) params args claim) := by
        refine tidy_append (ns := []) ok hc1 rfl (List.append_nil _).symm ?_ ?_ (fun f hf => by simp [nodeFacts] at hf)
        · intro c hm
          rw [List.mem_singleton.1 hm]
          exact functional_scope ha fun n hn => by simp [tyNames] at hn
        · intro c hm d hd
          rw [List.mem_singleton.1 hm] at hd ⊢
          cases hd
          exact scope_append hc1 rfl (Within.mkLam (args_scope ha) hcl)
      refine proof_good good rfl (fun m e => (Option.some.inj e) ▸ hfr) ok1 ?_ hd hp ha (scope_append hc1 rfl hcl) hsub hgoal
        hbody ⟨?_, hC.facts, ?_⟩ ?_ ?_
      · intro a ha' hm
        obtain ⟨c, hc, e⟩ := List.mem_map.1 hm
        rw [hc1] at hc
        rcases List.mem_append.1 hc with hc | hc
        · exact hf a ha' (List.mem_map.2 ⟨c, hc, e⟩)
        · rw [List.mem_singleton.1 hc] at e
          exact hna a ha' e.symm
      · rw [hc1]
        exact suits_unmark hs rfl rfl
      · rw [hc1]
        exact theorems_add hC.theorems fun c hc => by rw [List.mem_singleton.1 hc]; rfl
      · intro m e ts hl
        cases e
        exact hs.named { theoremConst n params args claim with isTheorem := true } (by simp) rfl _ rfl ts hl
      · exact hg
  | none =>
    have unnamed : ∀ node, nodeFact node = [.prop params (Value.mkAll (args.map (·.2)) claim)] →
        (∀ C θ, Fulfils F C θ above env → (∀ g ∈ goalsOf (above ++ nodeFacts env.nodes) node, g.Valid F) →
          (trusted = true → FactHolds F C θ (.prop params (Value.mkAll (args.map (·.2)) claim))) →
          FactHolds F C θ (.prop params (Value.mkAll (args.map (·.2)) claim))) →
        Grows above env (env.addNode node) ∧ Follows F above env (env.addNode node) trusted ∧
          (trusted = false → Possible F above env (env.addNode node) trusted) := by
      intro node hnode h
      refine ⟨grows_addNode ok ?_, follows_of (ns := [node]) rfl fun C θ hC _ hg hi => ?_, ?_⟩
      · intro f hf
        rw [hnode, List.mem_singleton] at hf
        subst hf
        exact Within.mkAll (args_scope ha) hcl
      · rw [nodeFacts_one, hnode, AllHold.one] at hi ⊢
        exact ⟨h C θ hC (fun g hg' => hg g (by simp [goalsAt, hg'])) hi, hC.theorems⟩
      · rintro rfl
        exact possible_same rfl
    split at he
    · next htc =>
      simp only [Option.some.injEq] at he
      subst he
      refine unnamed _ rfl fun C θ hC _ hi => ?_
      cases trusted with
      | true => exact hi rfl
      | false => exact hcited (by simpa using htc) C θ hC
    · simp only [Option.bind_eq_bind, Option.bind_eq_some_iff, Option.pure_def, Option.some.injEq] at he
      obtain ⟨sub, hsub, sub', hgoal, rfl⟩ := he
      refine unnamed _ rfl fun C θ hC hg _ => ?_
      exact proof_good (name := none) good rfl (fun m e => by cases e) ok hf hd hp ha hcl hsub hgoal hbody hC
        (fun m e => by cases e) hg

end Elab
end Acorn
