/-
`satisfy` statements: the constants they introduce can be chosen.
-/
import Verif.Lemmas.ModuleTheorem
namespace Acorn
namespace Elab

open Spec Spec.Modules Classical

universe u

variable {F : Frame.{u}} {C C' : String → List F.T → F.D} {θ θ' : String → F.T}

theorem fold_fresh (f : String × Ty → EnvConst) (hname : ∀ d, (f d).name = d.1) : ∀ (decls : List (String × Ty)) (env : Env),
    (∀ d ∈ decls, d.1 ∉ env.names) → (decls.map (·.1)).Nodup →
    (decls.foldl (fun e d => e.addConst (f d)) env).consts = env.consts ++ decls.map f ∧
    (decls.foldl (fun e d => e.addConst (f d)) env).types = env.types ∧
    (decls.foldl (fun e d => e.addConst (f d)) env).nodes = env.nodes
  | [], env, _, _ => ⟨(List.append_nil _).symm, rfl, rfl⟩
  | d :: decls, env, hf, hd => by
    have h0 : (env.addConst (f d)).consts = env.consts ++ [f d] :=
      addConst_fresh (by rw [hname]; exact hf d (by simp))
    rw [List.map_cons, List.nodup_cons] at hd
    obtain ⟨h1, h2, h3⟩ := fold_fresh f hname decls (env.addConst (f d)) (by
      intro a ha hm
      obtain ⟨c, hc, e⟩ := List.mem_map.1 hm
      rw [h0] at hc
      rcases List.mem_append.1 hc with hc | hc
      · exact hf a (by simp [ha]) (List.mem_map.2 ⟨c, hc, e⟩)
      · rw [List.mem_singleton.1 hc, hname] at e
        exact hd.1 (e ▸ List.mem_map.2 ⟨a, ha, rfl⟩)) hd.2
    refine ⟨?_, h2, h3⟩
    rw [List.foldl_cons, h1, h0, List.append_assoc]
    rfl

theorem denAll_new (θ : String → F.T) (st : List F.D) (ps : List Ty) : ∀ decls : List (String × Ty),
    F.denAll C θ st (decls.map fun d => .const d.1 ps d.2) = decls.map fun d => C d.1 (F.tys θ ps)
  | [] => rfl
  | a :: args => by
    simp only [List.map_cons, Frame.denAll, denAll_new θ st ps args]
    rfl

theorem fits_map {g : String × Ty → F.D} : ∀ {decls : List (String × Ty)},
    F.Fits (decls.map g) (F.tys θ (decls.map (·.2))) → ∀ a ∈ decls, F.mem (g a) (F.ty θ a.2)
  | [], _, a, ha => by simp at ha
  | d :: decls, h, a, ha => by
    rcases List.mem_cons.1 ha with rfl | ha
    · exact h.1
    · exact fits_map h.2 a ha

theorem denAll_stack (θ : String → F.T) : ∀ (ts : List Ty) (pre xs : List F.D), xs.length = ts.length →
    F.denAll C θ (pre ++ xs) ((ts.zipIdx pre.length).map fun (t, i) => .var i t) = xs
  | [], pre, [], _ => rfl
  | [], _, _ :: _, h => by simp at h
  | _ :: _, _, [], h => by simp at h
  | t :: ts, pre, x :: xs, h => by
    have := denAll_stack θ ts (pre ++ [x]) xs (by simpa using h)
    simp only [List.append_assoc, List.singleton_append, List.length_append, List.length_cons, List.length_nil,
      Nat.zero_add] at this
    simp only [List.zipIdx_cons, List.map_cons, Frame.denAll, this, List.cons.injEq, and_true]
    simp [Frame.den]

theorem denAll_varsOf (θ : String → F.T) {args : List (String × Ty)} {xs : List F.D} (h : xs.length = args.length) :
    F.denAll C θ xs (varsOf args) = xs := by
  have := denAll_stack (C := C) θ (args.map (·.2)) [] xs (by simpa using h)
  simp only [List.nil_append, List.length_nil] at this
  exact this

theorem fully_new {params : List String} {t : Ty} (h : params = [] → ∀ p, t.hasVar p = false) :
    FullyApplied params (params.map .arb) t := by
  refine ⟨fun p hp _ => mem_tysNames.2 ⟨.arb p, List.mem_map.2 ⟨p, hp, rfl⟩, by simp [tyNames]⟩, fun e => h ?_⟩
  simpa using e

theorem same_generic {params : List String} {v : Value} (h : EachConst (fun _ ps t => FullyApplied params ps t) v) :
    EachConst (SameGeneric F C params) v :=
  EachConst.mono (fun n ps t hf θ => constGeneric_meaning θ (.inl hf)) h

theorem names_arbs {params : List String} {n : String} (h : n ∈ tysNames (params.map Ty.arb)) : n ∈ params := by
  obtain ⟨t, ht, hn⟩ := mem_tysNames.1 h
  obtain ⟨p, hp, rfl⟩ := List.mem_map.1 ht
  simp only [tyNames, List.mem_singleton] at hn
  exact hn ▸ hp

/-- A proposition is added with constants about which it speaks. -/
theorem introduce_good {above : List EnvFact} {env env' : Env} {new : List EnvConst} {node : EnvNode} {params : List String}
    {v : Value} (ok : Tidy above env) (hc : env'.consts = env.consts ++ new) (ht : env'.types = env.types)
    (hn : env'.nodes = env.nodes ++ [node]) (hnode : nodeFact node = [.prop params v]) (hv : InScope env' params v)
    (hnew : ∀ c ∈ new, TypeInScope env c.params c.ty ∧ c.definition = none ∧ c.isTheorem = false ∧ c.con = none) :
    Grows above env env' ∧ Follows F above env env' true := by
  refine ⟨grows_append ok hc ht hn (fun c hm => (hnew c hm).1) ?_ ?_, follows_of hn fun C θ hC _ _ hi => ⟨hi rfl, ?_⟩⟩
  · intro c hm d hd
    rw [(hnew c hm).2.1] at hd
    cases hd
  · intro f hf
    rw [nodeFacts_one, hnode, List.mem_singleton] at hf
    subst hf
    exact hv
  · rw [hc]
    exact theorems_add hC.theorems fun c hm => (hnew c hm).2.2.1

/-- The new constants can be interpreted when they can be typed and the proposition can be made true. -/
theorem introduce_possible {above : List EnvFact} {env env' : Env} {new : List EnvConst} {node : EnvNode}
    {params : List String} {v : Value} (ok : Tidy above env) (hc : env'.consts = env.consts ++ new)
    (hn : env'.nodes = env.nodes ++ [node]) (hnode : nodeFact node = [.prop params v])
    (hnew : ∀ c ∈ new, TypeInScope env c.params c.ty ∧ c.definition = none ∧ c.isTheorem = false ∧ c.con = none)
    (h : ∀ C θ, Fulfils F C θ above env → (∀ g ∈ goalsOf (above ++ nodeFacts env.nodes) node, g.Valid F) →
      ∃ C', (∀ n ∈ env.names, C n = C' n) ∧
        (∀ c ∈ new, ∀ ts, ts.length = c.params.length →
          F.mem (C' c.name ts) (F.ty (F.with_ θ (c.params.zip ts)) c.ty)) ∧
        FactHolds F C' θ (.prop params v)) : Possible F above env env' true := by
  intro C θ hC hg
  obtain ⟨C', hag, htyped, hfact⟩ := h C θ hC fun g hg' => GoalsValid.new hn hg g (by simp [goalsAt, hg'])
  refine ⟨C', hag, ?_, fun _ => ?_⟩
  · rw [hc]
    refine suits_add (suits_agree ok hag (fun _ _ => rfl) hC.suits) htyped (fun c hm e => ?_) fun c hm => (hnew c hm).2.2.2
    rw [(hnew c hm).2.2.1] at e
    cases e
  · rw [hn, List.drop_left, nodeFacts_one, hnode, AllHold.one]
    exact hfact

theorem varSatisfy_good {above : List EnvFact} {env env' : Env} {params : List String} {decls : List (String × Ty)}
    {cond : Value} (he : addStmt env (.varSatisfy params decls cond) = some env')
    (hel : Elaborated F env (.varSatisfy params decls cond)) (ok : Tidy above env) :
    Grows above env env' ∧ Follows F above env env' true ∧ Possible F above env env' true := by
  unfold addStmt at he
  obtain ⟨ha, hsc, hfa⟩ := hel
  rw [Option.ite_none_left_eq_some] at he
  obtain ⟨hcond, he⟩ := he
  simp only [Bool.or_eq_true, not_or, Bool.not_eq_true, Bool.not_eq_false'] at hcond
  obtain ⟨⟨_, hp⟩, hdecls⟩ := hcond
  obtain ⟨hp, hpd⟩ := paramsOk_spec hp
  obtain ⟨hf, hd⟩ := argsOk_spec hdecls
  simp only [Option.bind_eq_bind, Option.bind_eq_some_iff, Option.pure_def, Option.some.injEq] at he
  obtain ⟨sub, hgoal, he⟩ := he
  unfold Env.addGoal at hgoal
  split at hgoal
  · cases hgoal
  simp only [Option.some.injEq] at hgoal
  subst hgoal
  obtain ⟨f1, f2, f3⟩ := fold_fresh (fun d => { name := d.1, params, ty := d.2.genericize params }) (fun _ => rfl) decls env hf hd
  generalize hnode : (EnvNode.block ((env.child params []).addNode _).nodes (some (.prop params _))) = node at he
  have hc : env'.consts = env.consts ++ decls.map fun d => { name := d.1, params, ty := d.2.genericize params } := by
    rw [← he]; exact f1
  have ht : env'.types = env.types := by rw [← he]; exact f2
  have hn : env'.nodes = env.nodes ++ [node] := by
    rw [← he]
    show _ ++ [node] = _
    rw [f3]
  have hfa' : EachConst (fun _ ps t => FullyApplied params ps t)
      (cond.bindValues 0 decls.length (decls.map fun d => .const d.1 (params.map .arb) d.2)) := by
    refine EachConst.bind (fun w hw => ?_) 0 _ hfa
    obtain ⟨d, hd', rfl⟩ := List.mem_map.1 hw
    exact fully_new fun _ => (ha d hd').2
  have hnew : ∀ c ∈ decls.map (fun d => ({ name := d.1, params, ty := d.2.genericize params } : EnvConst)),
      TypeInScope env c.params c.ty ∧ c.definition = none ∧ c.isTheorem = false ∧ c.con = none := by
    intro c hm
    obtain ⟨d, hd', rfl⟩ := List.mem_map.1 hm
    exact ⟨fun n hn => (ha d hd').1 n ((names_genericize params n d.2).1 hn), rfl, rfl, rfl⟩
  have hknown : ∀ d ∈ decls, Known env' d.1 params.length := by
    intro d hd'
    have hex : ∃ c, (decls.map fun d => ({ name := d.1, params, ty := d.2.genericize params } : EnvConst)).find?
        (fun c => c.name == d.1) = some c := by
      cases e : (decls.map fun d => ({ name := d.1, params, ty := d.2.genericize params } : EnvConst)).find?
        (fun c => c.name == d.1) with
      | some c => exact ⟨c, rfl⟩
      | none =>
        have := List.find?_eq_none.1 e _ (List.mem_map.2 ⟨d, hd', rfl⟩)
        simp at this
    obtain ⟨c, hcf⟩ := hex
    refine ⟨c, ?_, ?_⟩
    · rw [hc, List.find?_append]
      rw [show env.consts.find? (fun c => c.name == d.1) = none by
        rw [List.find?_eq_none]
        intro b hb e
        simp only [beq_iff_eq] at e
        exact hf d hd' (List.mem_map.2 ⟨b, hb, e⟩)]
      exact hcf
    · obtain ⟨b, _, rfl⟩ := List.mem_map.1 (List.mem_of_find?_eq_some hcf)
      rfl
  have hv : InScope env' params
      ((cond.bindValues 0 decls.length (decls.map fun d => .const d.1 (params.map .arb) d.2)).genericize params) := by
    refine Within.generic (Within.bind (WithinAll.of fun w hw => ?_) 0 _ (scope_append hc ht hsc)) hfa'
    obtain ⟨d, hd', rfl⟩ := List.mem_map.1 hw
    refine ⟨by simpa using hknown d hd', fun n hn => List.mem_append_left _ (names_arbs hn), fun n hn => ?_⟩
    rw [ht]
    exact (ha d hd').1 n hn
  have hnf : nodeFact node = [.prop params
      ((cond.bindValues 0 decls.length (decls.map fun d => .const d.1 (params.map .arb) d.2)).genericize params)] := by
    rw [← hnode]; rfl
  have hi := introduce_good (F := F) ok hc ht hn hnf hv hnew
  refine ⟨hi.1, hi.2, introduce_possible ok hc hn hnf hnew fun C θ hC hg => ?_⟩
  have hb := isBlock_child env params []
  -- the values that exist
  have hex : ∀ ts : List F.T, ∃ ys : List F.D, ts.length = params.length →
      F.Fits ys (F.tys (F.with_ θ (params.zip ts)) (decls.map (·.2))) ∧ F.Holds C (F.with_ θ (params.zip ts)) ys cond := by
    intro ts
    by_cases hl : ts.length = params.length
    · have h0 := hb.fulfils ok (fun a ha => by simp at ha) hp (fun θ t => ty_toArbitrary θ t) hC hl (xs := []) trivial
      have h1 := hg ⟨above ++ nodeFacts env.nodes, (env.child params []).consts,
        bindBlock [] (.ex (decls.map (·.2)) cond)⟩ (by
          rw [← hnode]
          simp only [goalsOf, Env.addNode, hb.nodesEq, List.nil_append, goalsAt, List.append_nil, List.mem_singleton])
        _ _ h0.suits (by
          have := h0.facts
          rwa [hb.nodesEq, nodeFacts, List.append_nil] at this)
      have hexs : InScope env params (.ex (decls.map (·.2)) cond) := ⟨args_scope fun a ha' => (ha a ha').1, hsc⟩
      unfold Frame.Holds at h1
      rw [bindBlock_den (args := []) (fun a ha => by simp at ha) (by simp) hexs hl (xs := []) trivial []
        (fun _ _ => rfl)] at h1
      obtain ⟨ys, hys, hh⟩ := (holds_ex _ _ _ _).1 h1
      exact ⟨ys, fun _ => ⟨hys, hh⟩⟩
    · exact ⟨[], fun h => absurd h hl⟩
  obtain ⟨Y, hY⟩ := Classical.skolem.1 hex
  refine ⟨fun n ts => if n ∈ decls.map (·.1) then pinned F C (decls.map (·.1)) (Y ts) n [] else C n ts, ?_, ?_, ?_⟩
  · intro n hn'
    funext ts
    exact (if_neg (fresh_names hf hn')).symm
  · intro c hm ts hl
    obtain ⟨d, hd', rfl⟩ := List.mem_map.1 hm
    have hl' : ts.length = params.length := hl
    have hfit := (hY ts hl').1
    rw [← pinned_args (C := C) hd hfit] at hfit
    have := fits_map hfit d hd'
    show F.mem (if d.1 ∈ decls.map (·.1) then _ else _) (F.ty _ (d.2.genericize params))
    rw [if_pos (List.mem_map.2 ⟨d, hd', rfl⟩), ty_genericize]
    exact this
  · intro ts hl
    unfold Frame.Holds
    rw [den_genericize _ _ _ (same_generic hfa')]
    have e := fun C => den_bindValues (F := F) (C := C) (F.with_ θ (params.zip ts)) [] []
      (decls.map fun d => .const d.1 (params.map .arb) d.2) cond (by rw [Within.bound hsc]; simp)
    simp only [List.nil_append, List.length_nil, List.append_nil] at e
    rw [bindValues_size (m := 0) (fun w hw k => by
      obtain ⟨d, _, rfl⟩ := List.mem_map.1 hw
      rfl), e, denAll_new, tys_map_arb, map_with θ hpd hl]
    have hmap : (decls.map fun d => if d.1 ∈ decls.map (·.1) then pinned F C (decls.map (·.1)) (Y ts) d.1 [] else C d.1 ts) =
        Y ts := by
      refine Eq.trans (List.map_congr_left fun d hd' => ?_) (pinned_args (C := C) hd (hY ts hl).1)
      rw [if_pos (List.mem_map.2 ⟨d, hd', rfl⟩)]
    rw [hmap]
    refine (den_scope _ hsc hl (fun n hn' => ?_) (fun _ _ => rfl)).trans (hY ts hl).2
    funext us
    exact if_neg (fresh_names hf hn')

theorem funSatisfy_good {b : Body} (good : BodyGood F b) {above : List EnvFact} {env env' : Env} {n : String}
    {params : List String} {args : List (String × Ty)} {ret : Ty} {cond : Value}
    (he : addStmt env (.funSatisfy n params args ret cond b) = some env')
    (hel : Elaborated F env (.funSatisfy n params args ret cond b)) (ok : Tidy above env) :
    Grows above env env' ∧ Follows F above env env' true ∧ Possible F above env env' true := by
  unfold addStmt at he
  obtain ⟨ha, hr, hnv, hsc, hfa, hbody⟩ := hel
  rw [Option.ite_none_left_eq_some] at he
  obtain ⟨hcond, he⟩ := he
  simp only [Bool.or_eq_true, not_or, Bool.not_eq_true, Bool.not_eq_false'] at hcond
  obtain ⟨⟨⟨hu, _⟩, hp⟩, hargs⟩ := hcond
  have hfr := inUse_fresh hu
  obtain ⟨hp, hpd⟩ := paramsOk_spec hp
  obtain ⟨hf, hd⟩ := argsOk_spec hargs
  simp only [Option.bind_eq_bind, Option.bind_eq_some_iff, Option.pure_def, Option.some.injEq] at he
  obtain ⟨sub, hsub, sub', hgoal, he⟩ := he
  unfold Env.addGoal at hgoal
  split at hgoal
  · cases hgoal
  simp only [Option.some.injEq] at hgoal
  subst hgoal
  generalize hnode : (EnvNode.block (sub.addNode _).nodes (some (.prop params _))) = node at he
  generalize htt : Ty.functional (args.map (·.2)) ret = t at *
  have hc : env'.consts = env.consts ++ [{ name := n, params, ty := t.genericize params }] := by
    rw [← he]; exact addConst_fresh (c := { name := n, params, ty := t.genericize params }) hfr
  have ht : env'.types = env.types := by rw [← he]; rfl
  have hn : env'.nodes = env.nodes ++ [node] := by rw [← he]; rfl
  have hts : TypeInScope env params t := htt ▸ functional_scope ha hr
  have hvars : ∀ w ∈ varsOf args, ∃ i, ∃ a ∈ args, w = .var i a.2 := by
    intro w hw
    obtain ⟨⟨u, i⟩, hm, rfl⟩ := List.mem_map.1 hw
    obtain ⟨a, ha', e⟩ := List.mem_map.1 (List.fst_mem_of_mem_zipIdx hm)
    exact ⟨i, a, ha', congrArg _ e.symm⟩
  have hvs : ∀ (P : String → List Ty → Ty → Prop), ∀ vs : List Value, (∀ w ∈ vs, ∃ i, ∃ a ∈ args, w = .var i a.2) →
      EachConstAll P vs := by
    intro P vs
    induction vs with
    | nil => intro _; trivial
    | cons w vs ih =>
      intro h
      obtain ⟨i, a, _, rfl⟩ := h w (by simp)
      exact ⟨trivial, ih fun w hw => h w (by simp [hw])⟩
  have hfa' : EachConst (fun _ ps t => FullyApplied params ps t)
      (Value.all (args.map (·.2)) (cond.bindValues args.length args.length
        [(Value.const n (params.map .arb) t).apply (varsOf args)])) := by
    refine EachConst.bind (fun w hw => ?_) _ _ hfa
    rw [List.mem_singleton.1 hw]
    unfold Value.apply
    split
    · exact fully_new hnv
    · exact ⟨fully_new hnv, hvs _ _ hvars⟩
  have hnew : ∀ c ∈ [({ name := n, params, ty := t.genericize params } : EnvConst)],
      TypeInScope env c.params c.ty ∧ c.definition = none ∧ c.isTheorem = false ∧ c.con = none := by
    intro c hm
    rw [List.mem_singleton.1 hm]
    exact ⟨fun m hm => hts m ((names_genericize params m t).1 hm), rfl, rfl, rfl⟩
  have hv : InScope env' params ((Value.all (args.map (·.2)) (cond.bindValues args.length args.length
        [(Value.const n (params.map .arb) t).apply (varsOf args)])).genericize params) := by
    refine Within.generic ⟨fun m hm => ?_, Within.bind (WithinAll.of fun w hw => ?_) _ _ (scope_append hc ht hsc)⟩ hfa'
    · rw [ht]
      exact args_scope ha m hm
    · rw [List.mem_singleton.1 hw]
      refine Within.apply ⟨?_, fun m hm => List.mem_append_left _ (names_arbs hm), fun m hm => ?_⟩
        (WithinAll.of fun w hw => ?_)
      · refine ⟨{ name := n, params, ty := t.genericize params }, ?_, by simp⟩
        rw [hc]
        exact find_new (c := { name := n, params, ty := t.genericize params }) hfr
      · rw [ht]; exact hts m hm
      · obtain ⟨i, a, ha', rfl⟩ := hvars w hw
        intro m hm
        rw [ht]
        exact ha a ha' m hm
  have hnf : nodeFact node = [.prop params ((Value.all (args.map (·.2)) (cond.bindValues args.length args.length
        [(Value.const n (params.map .arb) t).apply (varsOf args)])).genericize params)] := by
    rw [← hnode]; rfl
  have hi := introduce_good (F := F) ok hc ht hn hnf hv hnew
  refine ⟨hi.1, hi.2, introduce_possible ok hc hn hnf hnew fun C θ hC hg => ?_⟩
  have hb := isBlock_child env params args
  obtain ⟨gr, ok0, run⟩ := block_run good hb [] ok hf hp (fun θ t => ty_toArbitrary θ t)
    (fun n t => (names_toArbitrary n t).1) ha (fun f hf => by simp [nodeFacts] at hf)
    (start := env.child params args) (by simp) hsub hbody
  -- the values that exist
  have hex : ∀ (ts : List F.T) (xs : List F.D), ∃ y : F.D, ts.length = params.length →
      F.Fits xs (F.tys (F.with_ θ (params.zip ts)) (args.map (·.2))) →
      F.mem y (F.ty (F.with_ θ (params.zip ts)) ret) ∧ F.Holds C (F.with_ θ (params.zip ts)) (xs ++ [y]) cond := by
    intro ts xs
    by_cases h : ts.length = params.length ∧ F.Fits xs (F.tys (F.with_ θ (params.zip ts)) (args.map (·.2)))
    · obtain ⟨hl, hxs⟩ := h
      have hgs : GoalsValid F (above ++ nodeFacts env.nodes) (sub.addNode (.claim sub.consts
          (Value.mkEx [ret.toArbitrary] (bindBlock args cond))
          (.prop [] (Value.mkEx [ret.toArbitrary] (bindBlock args cond))))) := by
        intro g hg'
        exact hg g (by rw [← hnode]; exact hg')
      obtain ⟨C2, h2, h3⟩ := run C θ hC ts hl xs hxs (fun f hf => by simp [nodeFacts] at hf)
        (GoalsValid.before (env := sub) (ns := [_]) rfl hgs)
      have h1 := hgs ⟨(above ++ nodeFacts env.nodes) ++ nodeFacts sub.nodes, sub.consts,
        Value.mkEx [ret.toArbitrary] (bindBlock args cond)⟩ (by
          simp [Env.addNode, goalsAt_append, goalsAt, goalsOf]) C2 _ h3.suits h3.facts
      obtain ⟨ys, hys, hh⟩ := (den_mkEx _ [] [ret.toArbitrary] (bindBlock args cond)).1 h1
      cases ys with
      | nil => exact hys.elim
      | cons y ys =>
        cases ys with
        | cons => exact hys.2.elim
        | nil =>
          refine ⟨y, fun _ _ => ⟨?_, ?_⟩⟩
          · have := hys.1
            rwa [ty_toArbitrary] at this
          · unfold Frame.Holds at hh ⊢
            rwa [List.nil_append, bindBlock_den hf hd hsc hl hxs [y] (fun n hn => h2 n (hb.names hf hn))] at hh
    · exact ⟨F.tt, fun h1 h2 => absurd ⟨h1, h2⟩ h⟩
  obtain ⟨Y, hY⟩ := Classical.skolem.1 fun ts => Classical.skolem.1 (hex ts)
  have hag : ∀ m ∈ env.names, C m = setConst F C n
      (fun ts => F.lamN (F.tys (F.with_ θ (params.zip ts)) (args.map (·.2))) (Y ts)) m := by
    intro m hm
    rw [setConst_other]
    rintro rfl
    exact hfr hm
  refine ⟨_, hag, ?_, ?_⟩
  · intro c hm ts hl
    rw [List.mem_singleton.1 hm] at hl ⊢
    show F.mem (setConst F C n _ n ts) (F.ty _ (t.genericize params))
    rw [setConst_self, ty_genericize, ← htt, ty_functional]
    exact mem_lamN fun xs hxs => (hY ts xs hl hxs).1
  · intro ts hl
    unfold Frame.Holds
    rw [den_genericize _ _ _ (same_generic hfa')]
    refine (holds_all _ _ _ _).2 fun xs hxs => ?_
    have hlen : xs.length = args.length := by
      have := Fits.length hxs
      rw [tys_length] at this
      simpa using this
    have e := fun C => den_bindValues (F := F) (C := C) (F.with_ θ (params.zip ts)) xs []
      [(Value.const n (params.map .arb) t).apply (varsOf args)] cond (by rw [Within.bound hsc]; simp)
    simp only [List.append_nil, List.length_nil, Nat.add_zero, hlen] at e
    unfold Frame.Holds
    rw [List.nil_append, e]
    simp only [Frame.denAll]
    rw [den_apply, denAll_varsOf _ hlen]
    have : F.den (setConst F C n (fun ts => F.lamN (F.tys (F.with_ θ (params.zip ts)) (args.map (·.2))) (Y ts)))
        (F.with_ θ (params.zip ts)) xs (Value.const n (params.map .arb) t) =
        F.lamN (F.tys (F.with_ θ (params.zip ts)) (args.map (·.2))) (Y ts) := by
      show setConst F C n _ n (F.tys _ (params.map .arb)) = _
      rw [setConst_self, tys_map_arb, map_with θ hpd hl]
    rw [this, appN_lamN hxs]
    exact (den_scope _ hsc hl (fun m hm => (hag m hm).symm) (fun _ _ => rfl)).trans (hY ts xs hl hxs).2

end Elab
end Acorn
