/-
Statements with a block: theorems, `forall`, `if`.
-/
import Verif.Lemmas.ModuleSound
namespace Acorn
namespace Elab

open Spec Spec.Modules Classical

universe u

variable {F : Frame.{u}} {C C' : String → List F.T → F.D} {θ θ' : String → F.T}

section block

variable {above : List EnvFact} {env inner sub : Env} {params : List String} {args : List (String × Ty)} {g : Ty → Ty}

theorem IsBlock.find (hb : IsBlock env params args g inner) (hf : ∀ a ∈ args, a.1 ∉ env.names) {n : String}
    (hn : n ∈ env.names) : inner.consts.find? (fun c => c.name == n) = env.consts.find? (fun c => c.name == n) := by
  obtain ⟨base, hbase, e⟩ := hb.constsEq
  rw [e, fold_find g n args base (fresh_names hf hn), hbase]

theorem IsBlock.names (hb : IsBlock env params args g inner) (hf : ∀ a ∈ args, a.1 ∉ env.names) {n : String}
    (hn : n ∈ env.names ++ args.map (·.1)) : n ∈ inner.names := by
  rcases List.mem_append.1 hn with hn | hn
  · obtain ⟨c, hc, e⟩ := List.mem_map.1 hn
    exact List.mem_map.2 ⟨c, hb.old hf hc, e⟩
  · exact (hb.knownArg hn).mem

/-- The statements of a block, for one choice of types and arguments. -/
theorem block_run {b : Body} (good : BodyGood F b) (hb : IsBlock env params args g inner) (ns : List EnvNode)
    (ok : Tidy above env) (hf : ∀ a ∈ args, a.1 ∉ env.names) (hp : ∀ p ∈ params, p ∉ env.types)
    (hg : ∀ θ t, F.ty θ (g t) = F.ty θ t) (hgn : ∀ n t, n ∈ tyNames (g t) → n ∈ tyNames t)
    (ha : ∀ a ∈ args, TypeInScope env params a.2) (hns : ∀ f ∈ nodeFacts ns, FactInScope inner f)
    {start : Env} (hs : start = { inner with nodes := inner.nodes ++ ns })
    (hadd : addBody start b = some sub) (hel : ElaboratedBody F start b) :
    Grows (above ++ nodeFacts env.nodes) start sub ∧ Tidy (above ++ nodeFacts env.nodes) inner ∧
    ∀ C θ, Fulfils F C θ above env → ∀ ts, ts.length = params.length → ∀ xs,
      F.Fits xs (F.tys (F.with_ θ (params.zip ts)) (args.map (·.2))) →
      AllHold F (pinned F C (args.map (·.1)) xs) (F.with_ θ (params.zip ts)) (nodeFacts ns) →
      GoalsValid F (above ++ nodeFacts env.nodes) sub →
      ∃ C2, (∀ n ∈ inner.names, pinned F C (args.map (·.1)) xs n = C2 n) ∧
        Fulfils F C2 (F.with_ θ (params.zip ts)) (above ++ nodeFacts env.nodes) sub := by
  have ok0 := hb.tidy ok hf hgn ha
  have ok1 : Tidy (above ++ nodeFacts env.nodes) start := by
    subst hs
    exact tidy_append (new := []) (ns := ns) ok0 (List.append_nil _).symm rfl rfl (fun _ h => by simp at h)
      (fun _ h => by simp at h) hns
  obtain ⟨gr, ex⟩ := good _ _ _ hadd hel ok1
  refine ⟨gr, ok0, fun C θ hC ts hl xs hxs hall hgv => ?_⟩
  have h0 := hb.fulfils ok hf hp hg hC hl hxs
  have h1 : Fulfils F (pinned F C (args.map (·.1)) xs) (F.with_ θ (params.zip ts)) (above ++ nodeFacts env.nodes) start := by
    subst hs
    exact fulfils_nodes (env := inner) (ns := ns) rfl rfl h0 hall
  obtain ⟨C2, h2, h3⟩ := ex _ _ h1 hgv
  refine ⟨C2, fun n hn => h2 n ?_, h3⟩
  subst hs
  exact hn

/-- A statement about the arguments is in scope inside. -/
theorem bindBlock_scope (hb : IsBlock env params args g inner) (hf : ∀ a ∈ args, a.1 ∉ env.names)
    (ha : ∀ a ∈ args, TypeInScope env params a.2) {v : Value} (hv : InScope env params v) :
    InScope inner [] (bindBlock args v) := by
  have ht : ∀ n, n ∈ params ++ env.types → n ∈ [] ++ inner.types := by
    intro n hn
    simp only [hb.typesEq, List.nil_append, List.mem_append] at hn ⊢
    exact hn.symm
  refine Within.arbitrary (Within.bind (WithinAll.of fun w hw => ?_) 0 0
    (Within.mono (fun n k hk => hb.known (fresh_names hf hk.mem) hk) ht hv))
  obtain ⟨a, ha', rfl⟩ := List.mem_map.1 hw
  refine ⟨hb.knownArg (List.mem_map.2 ⟨a, ha', rfl⟩), fun n hn => by simp [tysNames] at hn, fun n hn => ?_⟩
  exact ht n (ha a ha' n ((names_toArbitrary n a.2).1 hn))

/-- Its meaning is that of the statement for the values of the arguments. -/
theorem bindBlock_den (hf : ∀ a ∈ args, a.1 ∉ env.names) (hd : (args.map (·.1)).Nodup) {v : Value}
    (hv : InScope env params v) {ts : List F.T} (hl : ts.length = params.length) {xs : List F.D}
    (hxs : F.Fits xs (F.tys (F.with_ θ (params.zip ts)) (args.map (·.2)))) (rest : List F.D) {C2 : String → List F.T → F.D}
    (hC : ∀ n ∈ env.names ++ args.map (·.1), pinned F C (args.map (·.1)) xs n = C2 n) :
    F.den C2 (F.with_ θ (params.zip ts)) rest (bindBlock args v) = F.den C (F.with_ θ (params.zip ts)) (xs ++ rest) v := by
  rw [den_bindBlock rest (Within.bound hv)]
  have e : (args.map fun a => C2 a.1 []) = xs := by
    refine Eq.trans (List.map_congr_left fun a ha => ?_) (pinned_args (C := C) hd hxs)
    rw [hC _ (List.mem_append_right _ (List.mem_map.2 ⟨a, ha, rfl⟩))]
  rw [e]
  refine den_scope _ hv hl (fun n hn => ?_) (fun _ _ => rfl)
  rw [← hC n (List.mem_append_left _ hn), pinned_out (fresh_names hf hn)]

end block

/-! ### `forall` -/

theorem forall_good {b : Body} (good : BodyGood F b) {above : List EnvFact} {env env' : Env} {args : List (String × Ty)}
    (he : addStmt env (.forall_ args b) = some env') (hel : Elaborated F env (.forall_ args b)) (ok : Tidy above env) :
    Grows above env env' ∧ Follows F above env env' false ∧ Possible F above env env' false := by
  unfold addStmt at he
  obtain ⟨ha, hbody, hplain⟩ := hel
  split at he
  · simp only [Option.some.injEq] at he
    subst he
    exact ⟨Grows.refl ok, fun C θ h _ _ _ => h, possible_same rfl⟩
  · split at he
    · cases he
    · next hu =>
      simp only [Option.bind_eq_bind, Option.bind_eq_some_iff, Option.pure_def, Option.some.injEq] at he
      obtain ⟨sub, hsub, v, hv, rfl⟩ := he
      have hf : ∀ a ∈ args, a.1 ∉ env.names := by
        intro a ha'
        refine inUse_fresh ?_
        cases e : env.inUse a.1 with
        | false => rfl
        | true => exact absurd (List.any_eq_true.2 ⟨a, ha', e⟩) hu
      have hb := isBlock_child env [] args
      obtain ⟨gr, ok0, run⟩ := block_run good hb [] ok hf (fun p hp => by simp at hp) (fun θ t => ty_toArbitrary θ t)
        (fun n t => (names_toArbitrary n t).1) ha (fun f hf => by simp [nodeFacts] at hf)
        (start := env.child [] args) (by simp) hsub hbody
      have hex := exported_spec (F := F) hv gr.tidy (by rw [gr.types, hb.typesEq, List.append_nil]) hf ha ?_
        (hplain sub hsub)
      · refine addNode_good ok ?_ ?_
        · intro f hf
          simp only [nodeFact, List.mem_singleton] at hf
          subst hf
          exact hex.1
        · intro C θ hC hgv
          rw [nodeFact, AllHold.one]
          intro ts hl
          have : ts = [] := List.length_eq_zero_iff.1 hl
          subst this
          refine hex.2 C θ fun xs hxs => ?_
          obtain ⟨C2, h2, h3⟩ := run C θ hC [] rfl xs hxs (fun f hf => by simp [nodeFacts] at hf) hgv
          exact ⟨C2, fun n hn => h2 n (hb.names hf hn), h3.suits, (AllHold.append.1 h3.facts).2⟩
      · intro n hn k hk
        obtain ⟨c, hc, e⟩ := hk
        refine ⟨c, ?_, e⟩
        rw [gr.find n (hb.names hf (List.mem_append_left _ hn)), hb.find hf hn] at hc
        exact hc

/-! ### `if` -/

/-- One branch of an `if` statement: what it exports follows from the condition. -/
theorem branch_good {b : Body} (good : BodyGood F b) {above : List EnvFact} {env sub : Env} {cond v : Value}
    (hsub : addBody ((env.child [] []).addPremise (bindBlock [] cond)) b = some sub)
    (hv : env.exported sub [] = some v) (hc : InScope env [] cond)
    (hbody : ElaboratedBody F ((env.child [] []).addPremise (bindBlock [] cond)) b)
    (hplain : EndsPlain ((env.child [] []).addPremise (bindBlock [] cond)) b) (ok : Tidy above env) :
    InScope env [] v ∧ ∀ C θ, Fulfils F C θ above env → GoalsValid F (above ++ nodeFacts env.nodes) sub →
      F.Holds C θ [] cond → F.Holds C θ [] v := by
  have hb := isBlock_child env [] []
  have hf : ∀ a ∈ ([] : List (String × Ty)), a.1 ∉ env.names := fun a ha => by simp at ha
  have ha : ∀ a ∈ ([] : List (String × Ty)), TypeInScope env [] a.2 := fun a ha => by simp at ha
  obtain ⟨gr, ok0, run⟩ := block_run good hb [.structural (.prop [] (bindBlock [] cond))] ok hf
    (fun p hp => by simp at hp) (fun θ t => ty_toArbitrary θ t) (fun n t => (names_toArbitrary n t).1) ha
    (fun f hf' => by
      simp only [nodeFacts, nodeFact, List.append_nil, List.mem_singleton] at hf'
      subst hf'
      exact bindBlock_scope hb hf ha hc)
    (start := (env.child [] []).addPremise (bindBlock [] cond)) rfl hsub hbody
  have hk : ∀ n ∈ env.names, ∀ k, Known sub n k → Known env n k := by
    intro n hn k hk
    obtain ⟨c, hc, e⟩ := hk
    refine ⟨c, ?_, e⟩
    rw [gr.find n (hb.names hf (List.mem_append_left _ hn))] at hc
    exact (hb.find hf hn) ▸ hc
  have hex := exported_spec (F := F) hv gr.tidy (by rw [gr.types]; exact (hb.typesEq.trans (List.append_nil _))) hf ha hk
    (hplain sub hsub)
  · refine ⟨hex.1, fun C θ hC hgv hcond => hex.2 C θ fun xs hxs => ?_⟩
    have hprem : AllHold F (pinned F C (([] : List (String × Ty)).map (·.1)) xs) (F.with_ θ (([] : List String).zip []))
        (nodeFacts [.structural (.prop [] (bindBlock [] cond))]) := ?_
    · obtain ⟨C2, h2, h3⟩ := run C θ hC [] rfl xs hxs hprem hgv
      exact ⟨C2, fun n hn => h2 n (hb.names hf hn), h3.suits, (AllHold.append.1 h3.facts).2⟩
    · rw [nodeFacts_one, nodeFact, AllHold.one]
      intro ts hl
      have : ts = [] := List.length_eq_zero_iff.1 hl
      subst this
      have e := bindBlock_den (F := F) (C := C) (θ := θ) (ts := []) (xs := xs) (args := []) (rest := []) hf
        (by simp) hc rfl hxs (C2 := pinned F C [] xs) (fun _ _ => rfl)
      have hx : xs = [] := by
        cases xs with
        | nil => rfl
        | cons => exact hxs.elim
      subst hx
      exact e.trans hcond

theorem ite_scope {env : Env} {p : Prop} [Decidable p] {v w : Value} (hv : InScope env [] v) (hw : InScope env [] w) :
    InScope env [] (if p then v else w) := by
  split
  · exact hv
  · exact hw

theorem ite_holds {p : Prop} [Decidable p] {v w : Value} (hv : p → F.Holds C θ [] v) (hw : ¬ p → F.Holds C θ [] w) :
    F.Holds C θ [] (if p then v else w) := by
  split
  · exact hv ‹_›
  · exact hw ‹_›

theorem if_good {b els : Body} (good : BodyGood F b) (good' : BodyGood F els) {above : List EnvFact} {env env' : Env}
    {cond : Value} (he : addStmt env (.if_ cond b els) = some env') (hel : Elaborated F env (.if_ cond b els))
    (ok : Tidy above env) :
    Grows above env env' ∧ Follows F above env env' false ∧ Possible F above env env' false := by
  unfold addStmt at he
  obtain ⟨hc, hb1, hp1, hb2, hp2⟩ := hel
  have first : ∃ (env1 : Env) (ifClaim : Option Value), Grows above env env1 ∧ Follows F above env env1 false ∧
      env1.consts = env.consts ∧ env1.child [] [] = env.child [] [] ∧
      (∀ w, ifClaim = some w → ∀ C θ, Fulfils F C θ above env1 → F.Holds C θ [] cond → F.Holds C θ [] w) ∧
      (if els.isEmpty = true then some env1
        else (addBody ((env1.child [] []).addPremise (bindBlock [] cond.negate)) els).bind fun sub =>
          (env1.exported sub []).bind fun v => some (env1.addNode (.block sub.nodes (some (.prop []
            (if (match ifClaim with | some w => v.same w | none => false) = true then v
              else .bin .implies cond.negate v)))))) = some env' := by
    by_cases hbe : b.isEmpty = true
    · refine ⟨env, none, Grows.refl ok, fun C θ h _ _ _ => h, rfl, rfl, fun w e => (by cases e), ?_⟩
      simpa only [hbe, if_pos, Option.bind_eq_bind, Option.bind_some, Option.pure_def] using he
    · simp only [hbe, if_neg, Bool.false_eq_true, not_false_eq_true, Option.bind_eq_bind, Option.pure_def] at he
      obtain ⟨sub, hsub, he⟩ := Option.bind_eq_some_iff.1 he
      obtain ⟨v, hv, he⟩ := Option.bind_eq_some_iff.1 he
      simp only [Option.bind_some] at he
      obtain ⟨hsc, himp⟩ := branch_good good hsub hv hc hb1 hp1 ok
      obtain ⟨g1, g2, _⟩ := addNode_good (F := F) (node := .block sub.nodes (some (.prop [] (.bin .implies cond v)))) ok
        (fun f hf => by
          simp only [nodeFact, List.mem_singleton] at hf
          subst hf
          exact ⟨hc, hsc⟩)
        (fun C θ hC hgv => by
          rw [nodeFact, AllHold.one]
          intro ts hl
          have : ts = [] := List.length_eq_zero_iff.1 hl
          subst this
          exact (holds_bin ..).2 fun h => himp C θ hC hgv h)
      refine ⟨_, some v, g1, g2, rfl, rfl, fun w e C θ hC hcond => ?_, ?_⟩
      · cases e
        have hm : EnvFact.prop [] (.bin .implies cond v) ∈
            above ++ nodeFacts (env.addNode (.block sub.nodes (some (.prop [] (.bin .implies cond v))))).nodes := by
          simp [Env.addNode, nodeFacts_append, nodeFacts, nodeFact]
        have := hC.facts _ hm [] rfl
        exact (holds_bin ..).1 this hcond
      · exact he
  obtain ⟨env1, ifClaim, g1, f1, c1, ch1, hw, he⟩ := first
  split at he
  · simp only [Option.some.injEq] at he
    subst he
    exact ⟨g1, f1, possible_same c1⟩
  · simp only [Option.bind_eq_some_iff, Option.some.injEq] at he
    obtain ⟨sub, hsub, v, hv, rfl⟩ := he
    have hsc1 : ∀ {w : Value}, InScope env [] w → InScope env1 [] w := fun h =>
      scope_append (new := []) (c1.trans (List.append_nil _).symm) g1.types h
    obtain ⟨hsc, himp⟩ := branch_good good' hsub hv (hsc1 (Within.negate hc)) (ch1 ▸ hb2) (ch1 ▸ hp2) g1.tidy
    have last := addNode_good (F := F) (env := env1) (node := .block sub.nodes (some (.prop []
        (if (match ifClaim with | some w => v.same w | none => false) then v else .bin .implies cond.negate v)))) g1.tidy
      (fun f hf => by
        simp only [nodeFact, List.mem_singleton] at hf
        subst hf
        show InScope env1 [] _
        exact ite_scope hsc ⟨hsc1 (Within.negate hc), hsc⟩)
      (fun C θ hC hgv => by
        rw [nodeFact, AllHold.one]
        intro ts hl
        have : ts = [] := List.length_eq_zero_iff.1 hl
        subst this
        refine ite_holds (fun hm => ?_) (fun _ => (holds_bin ..).2 fun h => himp C θ hC hgv h)
        have hgv' : GoalsValid F (above ++ nodeFacts env1.nodes) sub := hgv
        clear hgv
        cases ifClaim with
        | none => cases hm
        | some w =>
          by_cases hcond : F.Holds C θ [] cond
          · have := hw w rfl C θ hC hcond
            unfold Frame.Holds at this ⊢
            rw [den_same v w [] hm]
            exact this
          · exact himp C θ hC hgv' ((holds_negate θ [] cond).2 hcond))
    exact ⟨g1.trans last.1, f1.trans c1 rfl last.1 last.2.1, possible_same c1⟩

end Elab
end Acorn
