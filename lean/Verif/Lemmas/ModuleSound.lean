/-
What adding a statement does: the environment grows, its facts follow, and the constants it introduces can be
interpreted.  Here the general part, claims and definitions.
-/
import Verif.Lemmas.ModuleExport
namespace Acorn
namespace Elab

open Spec Spec.Modules Classical

universe u

variable {F : Frame.{u}} {C C' : String → List F.T → F.D} {θ θ' : String → F.T}

/-- An environment with more nodes and constants. -/
structure Grows (above : List EnvFact) (env env' : Env) : Prop where
  nodes : ∃ ns, env'.nodes = env.nodes ++ ns
  types : env'.types = env.types
  consts : ∀ c ∈ env.consts, c ∈ env'.consts
  find : ∀ n ∈ env.names, env'.consts.find? (fun c => c.name == n) = env.consts.find? (fun c => c.name == n)
  tidy : Tidy above env'

/-- The new facts follow, from what the statement introduces. -/
def Follows (F : Frame.{u}) (above : List EnvFact) (env env' : Env) (intro : Bool) : Prop :=
  ∀ C θ, Fulfils F C θ above env → Suits F C θ env'.consts → GoalsValid F above env' →
    (intro = true → AllHold F C θ (nodeFacts (env'.nodes.drop env.nodes.length))) → Fulfils F C θ above env'

/-- The new constants can be interpreted, so that what the statement introduces is true. -/
def Possible (F : Frame.{u}) (above : List EnvFact) (env env' : Env) (intro : Bool) : Prop :=
  ∀ C θ, Fulfils F C θ above env → GoalsValid F above env' → ∃ C', (∀ n ∈ env.names, C n = C' n) ∧
    Suits F C' θ env'.consts ∧ (intro = true → AllHold F C' θ (nodeFacts (env'.nodes.drop env.nodes.length)))

/-- The constants can be interpreted so that everything is true. -/
def Extendable (F : Frame.{u}) (above : List EnvFact) (env env' : Env) : Prop :=
  ∀ C θ, Fulfils F C θ above env → GoalsValid F above env' → ∃ C', (∀ n ∈ env.names, C n = C' n) ∧
    Fulfils F C' θ above env'

/-- What has to be shown of the statements of a block. -/
def BodyGood (F : Frame.{u}) (b : Body) : Prop :=
  ∀ above env env', addBody env b = some env' → ElaboratedBody F env b → Tidy above env →
    Grows above env env' ∧ Extendable F above env env'

theorem Grows.names {above : List EnvFact} {env env' : Env} (h : Grows above env env') {n : String} (hn : n ∈ env.names) :
    n ∈ env'.names := by
  obtain ⟨c, hc, e⟩ := List.mem_map.1 hn
  exact List.mem_map.2 ⟨c, h.consts c hc, e⟩

theorem Grows.trans {above : List EnvFact} {e1 e2 e3 : Env} (h : Grows above e1 e2) (h' : Grows above e2 e3) :
    Grows above e1 e3 := by
  obtain ⟨ns, hns⟩ := h.nodes
  obtain ⟨ms, hms⟩ := h'.nodes
  exact ⟨⟨ns ++ ms, by rw [hms, hns, List.append_assoc]⟩, h'.types.trans h.types, fun c hc => h'.consts c (h.consts c hc),
    fun n hn => (h'.find n (h.names hn)).trans (h.find n hn), h'.tidy⟩

theorem Grows.refl {above : List EnvFact} {env : Env} (ok : Tidy above env) : Grows above env env :=
  ⟨⟨[], (List.append_nil _).symm⟩, rfl, fun _ h => h, fun _ _ => rfl, ok⟩

theorem GoalsValid.before {above : List EnvFact} {env env' : Env} {ns : List EnvNode} (hn : env'.nodes = env.nodes ++ ns)
    (h : GoalsValid F above env') : GoalsValid F above env := by
  intro g hg
  refine h g ?_
  rw [hn, goalsAt_append]
  exact List.mem_append_left _ hg

theorem GoalsValid.new {above : List EnvFact} {env env' : Env} {ns : List EnvNode} (hn : env'.nodes = env.nodes ++ ns)
    (h : GoalsValid F above env') : ∀ g ∈ goalsAt (above ++ nodeFacts env.nodes) ns, g.Valid F := by
  intro g hg
  refine h g ?_
  rw [hn, goalsAt_append]
  exact List.mem_append_right _ hg

theorem Possible.extendable {above : List EnvFact} {env env' : Env} {i : Bool} (ok : Tidy above env)
    (hf : Follows F above env env' i) (hp : Possible F above env env' i) : Extendable F above env env' := by
  intro C θ h hg
  obtain ⟨C', ha, hs, hi⟩ := hp C θ h hg
  exact ⟨C', ha, hf C' θ (fulfils_agree ok ha (fun _ _ => rfl) h) hs hg hi⟩

theorem Extendable.trans {above : List EnvFact} {e1 e2 e3 : Env} (g1 : Grows above e1 e2) (g2 : Grows above e2 e3)
    (h1 : Extendable F above e1 e2) (h2 : Extendable F above e2 e3) : Extendable F above e1 e3 := by
  intro C θ h hg
  obtain ⟨ns, hns⟩ := g2.nodes
  obtain ⟨C1, ha1, hC1⟩ := h1 C θ h (GoalsValid.before hns hg)
  obtain ⟨C2, ha2, hC2⟩ := h2 C1 θ hC1 hg
  exact ⟨C2, fun n hn => (ha1 n hn).trans (ha2 n (g1.names hn)), hC2⟩

/-! ### Growing -/

theorem find_append_old {consts new : List EnvConst} {n : String} (h : n ∈ consts.map (·.name)) :
    (consts ++ new).find? (fun c => c.name == n) = consts.find? (fun c => c.name == n) := by
  rw [List.find?_append]
  cases e : consts.find? (fun c => c.name == n) with
  | some c => rfl
  | none =>
    obtain ⟨c, hc, e'⟩ := List.mem_map.1 h
    have := List.find?_eq_none.1 e c hc
    simp [e'] at this

theorem known_append {env env' : Env} {new : List EnvConst} (hc : env'.consts = env.consts ++ new) {n : String} {k : Nat}
    (h : Known env n k) : Known env' n k := by
  obtain ⟨c, h1, h2⟩ := h
  refine ⟨c, ?_, h2⟩
  rw [hc, List.find?_append, h1]
  rfl

theorem scope_append {env env' : Env} {new : List EnvConst} (hc : env'.consts = env.consts ++ new)
    (ht : env'.types = env.types) {ps : List String} {v : Value} (h : InScope env ps v) : InScope env' ps v := by
  unfold InScope
  rw [ht]
  exact Within.mono (fun n k hk => known_append hc hk) (fun _ h => h) h

theorem fact_append {env env' : Env} {new : List EnvConst} (hc : env'.consts = env.consts ++ new)
    (ht : env'.types = env.types) {f : EnvFact} (h : FactInScope env f) : FactInScope env' f := by
  cases f with
  | prop ps v => exact scope_append hc ht h
  | defn n ps t d =>
    refine ⟨?_, scope_append hc ht h.2⟩
    obtain ⟨c, hm, e⟩ := List.mem_map.1 h.1
    exact List.mem_map.2 ⟨c, by rw [hc]; exact List.mem_append_left _ hm, e⟩

theorem tidy_append {above : List EnvFact} {env env' : Env} {new : List EnvConst} {ns : List EnvNode}
    (ok : Tidy above env) (hc : env'.consts = env.consts ++ new) (ht : env'.types = env.types)
    (hn : env'.nodes = env.nodes ++ ns) (h1 : ∀ c ∈ new, TypeInScope env c.params c.ty)
    (h2 : ∀ c ∈ new, ∀ d, c.definition = some d → InScope env' c.params d)
    (h3 : ∀ f ∈ nodeFacts ns, FactInScope env' f) : Tidy above env' := by
  constructor
  · intro c hm n hn'
    rw [ht]
    rw [hc, List.mem_append] at hm
    rcases hm with hm | hm
    · exact ok.types c hm n hn'
    · exact h1 c hm n hn'
  · intro c hm d hd
    rw [hc, List.mem_append] at hm
    rcases hm with hm | hm
    · exact scope_append hc ht (ok.definitions c hm d hd)
    · exact h2 c hm d hd
  · intro f hf
    rw [hn, nodeFacts_append, ← List.append_assoc, List.mem_append] at hf
    rcases hf with hf | hf
    · exact fact_append hc ht (ok.facts f hf)
    · exact h3 f hf

theorem grows_append {above : List EnvFact} {env env' : Env} {new : List EnvConst} {ns : List EnvNode}
    (ok : Tidy above env) (hc : env'.consts = env.consts ++ new) (ht : env'.types = env.types)
    (hn : env'.nodes = env.nodes ++ ns) (h1 : ∀ c ∈ new, TypeInScope env c.params c.ty)
    (h2 : ∀ c ∈ new, ∀ d, c.definition = some d → InScope env' c.params d)
    (h3 : ∀ f ∈ nodeFacts ns, FactInScope env' f) : Grows above env env' :=
  ⟨⟨ns, hn⟩, ht, fun c hm => by rw [hc]; exact List.mem_append_left _ hm,
    fun n hn' => by rw [hc]; exact find_append_old hn', tidy_append ok hc ht hn h1 h2 h3⟩

theorem nodeFacts_one (n : EnvNode) : nodeFacts [n] = nodeFact n := by simp [nodeFacts]

theorem grows_addNode {above : List EnvFact} {env : Env} {node : EnvNode} (ok : Tidy above env)
    (h : ∀ f ∈ nodeFact node, FactInScope env f) : Grows above env (env.addNode node) :=
  grows_append (new := []) (ns := [node]) ok (List.append_nil _).symm rfl rfl (fun _ h => by simp at h)
    (fun _ h => by simp at h) fun f hf => h f (by rwa [nodeFacts_one] at hf)

theorem fulfils_nodes {above : List EnvFact} {env env' : Env} {ns : List EnvNode} (hc : env'.consts = env.consts)
    (hn : env'.nodes = env.nodes ++ ns) (h : Fulfils F C θ above env) (hns : AllHold F C θ (nodeFacts ns)) :
    Fulfils F C θ above env' := by
  refine ⟨hc ▸ h.suits, ?_, hc ▸ h.theorems⟩
  rw [hn, nodeFacts_append, ← List.append_assoc]
  exact AllHold.append.2 ⟨h.facts, hns⟩

theorem follows_of {above : List EnvFact} {env env' : Env} {ns : List EnvNode} {i : Bool}
    (hn : env'.nodes = env.nodes ++ ns)
    (h : ∀ C θ, Fulfils F C θ above env → Suits F C θ env'.consts →
      (∀ g ∈ goalsAt (above ++ nodeFacts env.nodes) ns, g.Valid F) → (i = true → AllHold F C θ (nodeFacts ns)) →
      AllHold F C θ (nodeFacts ns) ∧ TheoremsTrue F C θ env'.consts) : Follows F above env env' i := by
  intro C θ hf hs hg hi
  rw [hn, List.drop_left] at hi
  obtain ⟨h1, h2⟩ := h C θ hf hs (GoalsValid.new hn hg) hi
  refine ⟨hs, ?_, h2⟩
  rw [hn, nodeFacts_append, ← List.append_assoc]
  exact AllHold.append.2 ⟨hf.facts, h1⟩

theorem possible_same {above : List EnvFact} {env env' : Env} (hc : env'.consts = env.consts) :
    Possible F above env env' false := by
  intro C θ h _
  exact ⟨C, fun _ _ => rfl, hc ▸ h.suits, fun e => by cases e⟩

/-- A node is added whose facts follow. -/
theorem addNode_good {above : List EnvFact} {env : Env} {node : EnvNode} (ok : Tidy above env)
    (hs : ∀ f ∈ nodeFact node, FactInScope env f)
    (h : ∀ C θ, Fulfils F C θ above env → (∀ g ∈ goalsOf (above ++ nodeFacts env.nodes) node, g.Valid F) →
      AllHold F C θ (nodeFact node)) :
    Grows above env (env.addNode node) ∧ Follows F above env (env.addNode node) false ∧
      Possible F above env (env.addNode node) false := by
  refine ⟨grows_addNode ok hs, follows_of (ns := [node]) rfl fun C θ hf _ hg _ => ?_, possible_same rfl⟩
  rw [nodeFacts_one]
  refine ⟨h C θ hf fun g hg' => hg g ?_, hf.theorems⟩
  simp only [goalsAt, List.append_nil]
  exact hg'

theorem Follows.trans {above : List EnvFact} {e1 e2 e3 : Env} (hc1 : e2.consts = e1.consts) (hc2 : e3.consts = e2.consts)
    (g2 : Grows above e2 e3) (h1 : Follows F above e1 e2 false) (h2 : Follows F above e2 e3 false) :
    Follows F above e1 e3 false := by
  intro C θ hf hs hg _
  obtain ⟨ns, hns⟩ := g2.nodes
  exact h2 C θ (h1 C θ hf (hc1 ▸ hf.suits) (GoalsValid.before hns hg) fun e => by cases e) hs hg fun e => by cases e

/-! ### Claims -/

theorem fits_typed {known : List EnvConst} {Γ : List Ty} {st : List F.D} (hs : Suits F C θ known)
    (hst : F.Fits st (F.tys θ Γ)) : ∀ {as : List Value} {us : List Ty}, TypedAll F known Γ as us →
    F.Fits (F.denAll C θ st as) (F.tys θ us)
  | [], [], _ => trivial
  | a :: as, u :: us, h => ⟨h.1 C θ st hs hst, fits_typed hs hst h.2⟩
  | [], _ :: _, h => h.elim
  | _ :: _, [], h => h.elim

theorem zip_param_meanings : ∀ (params : List String) (ps : List Ty),
    (params.zip ps).map (fun p => (p.1, F.ty θ p.2)) = params.zip (F.tys θ ps)
  | [], _ => rfl
  | _ :: _, [] => rfl
  | p :: params, t :: ps => by
    simp only [List.zip_cons_cons, List.map_cons, Frame.tys, zip_param_meanings params ps]

theorem tys_inst (params : List String) (ps us : List Ty) :
    F.tys θ (Ty.instantiateAll (params.zip ps) us) = F.tys (F.with_ θ (params.zip (F.tys θ ps))) us := by
  rw [tys_instantiate]
  show F.tys (F.with_ θ ((params.zip ps).map fun p => (p.1, F.ty θ p.2))) us = _
  rw [zip_param_meanings]

/-- A call of a theorem is true. -/
theorem cited {env : Env} {Γ : List Ty} {st : List F.D} {v : Value} (h : CallsWell F env Γ v)
    (hcit : env.isCitation v = true) (hs : Suits F C θ env.consts) (ht : TheoremsTrue F C θ env.consts) (hst : F.Fits st (F.tys θ Γ)) :
    F.den C θ st v = F.tt := by
  unfold Env.isCitation at hcit
  split at hcit
  · next n hn =>
    obtain ⟨c, hc, h2⟩ := List.any_eq_true.1 hcit
    simp only [Bool.and_eq_true, beq_iff_eq] at h2
    obtain ⟨e, hth⟩ := h2
    obtain ⟨us, ps, t, as, hty, hl, rfl, has⟩ := h c hc hth (by rw [hn, e])
    rw [den_apply]
    refine ht c hc hth us hty (F.tys θ ps) (by rw [tys_length]; exact hl) _ ?_
    have := fits_typed hs hst has
    rwa [tys_inst] at this
  · cases hcit

theorem claim_good {above : List EnvFact} {env env' : Env} {v : Value} (he : addStmt env (.claim v) = some env')
    (hel : Elaborated F env (.claim v)) (ok : Tidy above env) :
    Grows above env env' ∧ Follows F above env env' false ∧ Possible F above env env' false := by
  unfold addStmt at he
  obtain ⟨hw, hcit⟩ := hel
  split at he
  · next hc =>
    simp only [Option.some.injEq] at he
    subst he
    refine addNode_good ok ?_ ?_
    · intro f hf
      simp only [nodeFact, List.mem_singleton] at hf
      subst hf
      exact hw
    · intro C θ hf _
      rw [nodeFact, AllHold.one]
      intro ts hl
      have : ts = [] := List.length_eq_zero_iff.1 hl
      subst this
      exact cited hcit hc hf.suits hf.theorems trivial
  · unfold Env.addGoal at he
    split at he
    · cases he
    · simp only [Option.some.injEq] at he
      subst he
      refine addNode_good ok ?_ ?_
      · intro f hf
        simp only [nodeFact, List.mem_singleton] at hf
        subst hf
        exact hw
      · intro C θ hf hg
        rw [nodeFact, AllHold.one]
        intro ts hl
        have : ts = [] := List.length_eq_zero_iff.1 hl
        subst this
        exact hg ⟨_, env.consts, v⟩ (by simp [goalsOf]) C θ hf.suits hf.facts

/-! ### Definitions -/

theorem setConst_self {n : String} {f : List F.T → F.D} {ts : List F.T} : setConst F C n f n ts = f ts := if_pos rfl

theorem setConst_other {n m : String} {f : List F.T → F.D} (h : m ≠ n) : setConst F C n f m = C m := by
  funext ts
  exact if_neg h


/-- A constant with a definition is added. -/
theorem defined_good {above : List EnvFact} {env env' : Env} {c : EnvConst} (ok : Tidy above env)
    (hfresh : c.name ∉ env.names) (hc : env'.consts = env.consts ++ [c]) (ht : env'.types = env.types)
    (hn : env'.nodes = env.nodes ++ [.structural (.defn c.name c.params c.ty
      (c.definition.getD (.const c.name (c.params.map .tvar) c.ty)))])
    (hth : c.isTheorem = false) (hcon : c.con = none) (hty : TypeInScope env c.params c.ty)
    (hd : ∀ d, c.definition = some d → InScope env' c.params d) :
    Grows above env env' ∧ Follows F above env env' true ∧
      ((∃ d, c.definition = some d ∧ ∀ C θ, Suits F C θ env.consts → ∃ f : List F.T → F.D, ∀ ts, ts.length = c.params.length →
          F.mem (f ts) (F.ty (F.with_ θ (c.params.zip ts)) c.ty) ∧
            f ts = F.den (setConst F C c.name f) (F.with_ θ (c.params.zip ts)) [] d) → Possible F above env env' true) := by
  have hmem : c.name ∈ env'.names := List.mem_map.2 ⟨c, by rw [hc]; simp, rfl⟩
  refine ⟨?_, ?_, ?_⟩
  · refine grows_append (new := [c]) ok hc ht hn ?_ ?_ ?_
    · intro d hd
      rw [List.mem_singleton.1 hd]
      exact hty
    · intro d hd'
      rw [List.mem_singleton.1 hd']
      exact hd
    · intro f hf
      simp only [nodeFacts, nodeFact, List.append_nil, List.mem_singleton] at hf
      subst hf
      refine ⟨hmem, ?_⟩
      cases hdef : c.definition with
      | some d => exact hd d hdef
      | none =>
        simp only [Option.getD_none]
        refine ⟨⟨c, ?_, by simp⟩, fun n hn' => ?_, fun n hn' => ?_⟩
        · rw [hc, List.find?_append]
          rw [show env.consts.find? (fun d => d.name == c.name) = none by
            rw [List.find?_eq_none]
            intro d hd e
            simp only [beq_iff_eq] at e
            exact hfresh (List.mem_map.2 ⟨d, hd, e⟩)]
          simp
        · obtain ⟨t, ht', hn'⟩ := mem_tysNames.1 hn'
          obtain ⟨p, hp, rfl⟩ := List.mem_map.1 ht'
          simp only [tyNames, List.mem_singleton] at hn'
          subst hn'
          exact List.mem_append_left _ hp
        · rw [ht]
          exact hty n hn'
  · refine follows_of hn fun C θ hf hs _ hi => ⟨hi rfl, ?_⟩
    rw [hc]
    exact theorems_add hf.theorems fun d hd => by rw [List.mem_singleton.1 hd]; exact hth
  · rintro ⟨d, hdef, hsol⟩ C θ hf _
    obtain ⟨f, hf'⟩ := hsol C θ hf.suits
    have hag : ∀ n ∈ env.names, C n = setConst F C c.name f n := by
      intro n hn'
      rw [setConst_other]
      rintro rfl
      exact hfresh hn'
    refine ⟨_, hag, ?_, ?_⟩
    · rw [hc]
      refine suits_add (suits_agree ok hag (fun _ _ => rfl) hf.suits) ?_ ?_ ?_
      · intro c' hc' ts hl
        rw [List.mem_singleton.1 hc'] at hl ⊢
        rw [setConst_self]
        exact (hf' ts hl).1
      · intro c' hc' h
        rw [List.mem_singleton.1 hc', hth] at h
        cases h
      · intro c' hc'
        rw [List.mem_singleton.1 hc', hcon]
    · intro _
      rw [hn, List.drop_left, nodeFacts_one, nodeFact, AllHold.one]
      intro ts hl
      rw [setConst_self, hdef]
      exact (hf' ts hl).2

/-- A value in scope, of the right type, can be the definition of a new constant. -/
theorem scope_definable {above : List EnvFact} {env : Env} {n : String} {params : List String} {t : Ty} {d : Value} (ok : Tidy above env)
    (hfresh : n ∉ env.names) (hp : ∀ p ∈ params, p ∉ env.types) (hsc : InScope env params d) (htyped : Typed F env.consts [] d t) :
    ∀ C θ, Suits F C θ env.consts → ∃ f : List F.T → F.D, ∀ ts, ts.length = params.length →
      F.mem (f ts) (F.ty (F.with_ θ (params.zip ts)) t) ∧
        f ts = F.den (setConst F C n f) (F.with_ θ (params.zip ts)) [] d := by
  intro C θ hs
  refine ⟨fun ts => F.den C (F.with_ θ (params.zip ts)) [] d, fun ts hl => ⟨?_, ?_⟩⟩
  · exact htyped C _ [] (suits_agree ok (fun _ _ => rfl) (with_fresh hp) hs) trivial
  · refine den_scope [] hsc hl (fun m hm => ?_) (fun _ _ => rfl)
    rw [setConst_other]
    rintro rfl
    exact hfresh hm

theorem paramsOk_spec {env : Env} {params : List String} (h : env.paramsOk params = true) :
    (∀ p ∈ params, p ∉ env.types) ∧ params.Nodup := by
  simp only [Env.paramsOk, Bool.and_eq_true, List.all_eq_true, Bool.not_eq_true', List.contains_eq_mem,
    decide_eq_false_iff_not, decide_eq_true_eq] at h
  exact h

theorem argsOk_spec {env : Env} {args : List (String × Ty)} (h : env.argsOk args = true) :
    (∀ a ∈ args, a.1 ∉ env.names) ∧ (args.map (·.1)).Nodup := by
  simp only [Env.argsOk, Bool.and_eq_true, List.all_eq_true, Bool.not_eq_true', decide_eq_true_eq] at h
  exact ⟨fun a ha => inUse_fresh (h.1 a ha), h.2⟩

theorem let_good {above : List EnvFact} {env env' : Env} {n : String} {params : List String} {t : Ty} {value : Option Value}
    (he : addStmt env (.let_ n params t value) = some env') (hel : Elaborated F env (.let_ n params t value))
    (ok : Tidy above env) :
    Grows above env env' ∧ Follows F above env env' true ∧
      (¬ Assumes F env (.let_ n params t value) → Possible F above env env' true) := by
  unfold addStmt at he
  obtain ⟨hty, hv⟩ := hel
  split at he
  · cases he
  · next hcond =>
    simp only [Bool.or_eq_true, not_or, Bool.not_eq_true, Bool.not_eq_false'] at hcond
    obtain ⟨⟨hu, _⟩, hp⟩ := hcond
    obtain ⟨hp, _⟩ := paramsOk_spec hp
    split at he
    · simp only [Option.some.injEq] at he
      subst he
      refine ⟨⟨⟨[], (List.append_nil _).symm⟩, rfl, fun _ h => h, fun _ _ => rfl, ok.types, ok.definitions, ok.facts⟩,
        fun C θ hf _ _ _ => ⟨hf.suits, hf.facts, hf.theorems⟩, fun _ C θ hf _ => ⟨C, fun _ _ => rfl, hf.suits, ?_⟩⟩
      intro _
      rw [List.drop_length]
      exact AllHold.nil
    · simp only [Option.some.injEq] at he
      subst he
      have hfr := inUse_fresh hu
      have hcs := addConst_fresh (env := env) (c := { name := n, params, ty := t, definition := value }) hfr
      have := defined_good (F := F) (above := above) (env := env)
        (env' := env.defineConst { name := n, params, ty := t, definition := value })
        (c := { name := n, params, ty := t, definition := value }) ok hfr hcs rfl rfl rfl rfl hty
        (fun d hd => scope_append hcs rfl (hv d hd))
      refine ⟨this.1, this.2.1, fun hna => this.2.2 ?_⟩
      cases value with
      | none => exact absurd trivial hna
      | some v => exact ⟨v, rfl, scope_definable ok hfr hp (hv v rfl) (Classical.byContradiction hna)⟩

theorem typed_lam {known : List EnvConst} {args : List (String × Ty)} {v : Value} {ret : Ty}
    (h : Typed F known (args.map (·.2)) v ret) :
    Typed F known [] (Value.mkLam (args.map (·.2)) v) (Ty.functional (args.map (·.2)) ret) := by
  intro C θ st hs hst
  cases st with
  | cons => exact hst.elim
  | nil =>
    rw [den_mkLam, ty_functional]
    exact mem_lamN fun xs hxs => h C θ xs hs hxs

theorem functional_scope {env : Env} {params : List String} {args : List (String × Ty)} {ret : Ty}
    (ha : ∀ a ∈ args, TypeInScope env params a.2) (hr : TypeInScope env params ret) :
    TypeInScope env params (Ty.functional (args.map (·.2)) ret) := by
  intro n hn
  rcases (names_functional n _ _).1 hn with h | h
  · obtain ⟨t, ht, hn⟩ := mem_tysNames.1 h
    obtain ⟨a, ha', rfl⟩ := List.mem_map.1 ht
    exact ha a ha' n hn
  · exact hr n h

theorem args_scope {env : Env} {params : List String} {args : List (String × Ty)}
    (ha : ∀ a ∈ args, TypeInScope env params a.2) : ∀ n ∈ tysNames (args.map (·.2)), n ∈ params ++ env.types := by
  intro n hn
  obtain ⟨t, ht, hn⟩ := mem_tysNames.1 hn
  obtain ⟨a, ha', rfl⟩ := List.mem_map.1 ht
  exact ha a ha' n hn

theorem filter_added {consts : List EnvConst} {c : EnvConst} (h : c.name ∉ consts.map (·.name)) :
    (consts.filter (fun d => d.name != c.name) ++ [c]).filter (fun d => d.name != c.name) = consts := by
  rw [List.filter_append, filter_fresh h, filter_fresh h]
  simp

/-- A definition that can be met, of a constant of functional type. -/
theorem definable_lam {env : Env} {n : String} {params : List String} {args : List Ty} {ret : Ty} {v : Value}
    (h : Definable F env n params args ret v) (C : String → List F.T → F.D) (θ : String → F.T) (hs : Suits F C θ env.consts) :
    ∃ f : List F.T → F.D, ∀ ts, ts.length = params.length →
      F.mem (f ts) (F.ty (F.with_ θ (params.zip ts)) (Ty.functional args ret)) ∧
        f ts = F.den (setConst F C n f) (F.with_ θ (params.zip ts)) [] (Value.mkLam args v) := by
  obtain ⟨f, hf⟩ := h C θ hs
  refine ⟨f, fun ts hl => ?_⟩
  obtain ⟨h1, h2⟩ := hf ts hl
  refine ⟨by rw [ty_functional]; exact h1, ?_⟩
  rw [den_mkLam]
  refine extN h1 (mem_lamN fun xs hxs => ?_) fun xs hxs => ?_
  · rw [List.nil_append, ← h2 xs hxs]
    exact mem_appN h1 hxs
  · rw [h2 xs hxs, appN_lamN hxs, List.nil_append]

theorem define_good {above : List EnvFact} {env env' : Env} {name : DefinedName} {params : List String}
    {args : List (String × Ty)} {ret : Ty} {value : Option Value}
    (he : addStmt env (.define name params args ret value) = some env')
    (hel : Elaborated F env (.define name params args ret value)) (ok : Tidy above env) :
    Grows above env env' ∧ Follows F above env env' true ∧
      (¬ Assumes F env (.define name params args ret value) → Possible F above env env' true) := by
  unfold addStmt at he
  obtain ⟨hrec, ha, hr, hv⟩ := hel
  rw [Option.ite_none_left_eq_some] at he
  obtain ⟨hcond, he⟩ := he
  · simp only [Bool.or_eq_true, not_or, Bool.not_eq_true, Bool.not_eq_false'] at hcond
    obtain ⟨⟨⟨_, hp⟩, _⟩, hn⟩ := hcond
    obtain ⟨hp, _⟩ := paramsOk_spec hp
    simp only [Option.some.injEq] at he
    have hfr : name.constName ∉ env.names := by
      cases name with
      | const n => exact inUse_fresh hn
      | inst a b c =>
        simpa only [List.contains_eq_mem, decide_eq_false_iff_not] using hn
    generalize hc0 : ({ name := name.constName, params, ty := Ty.functional (args.map (·.2)) ret, definition := value.map (Value.mkLam (args.map (·.2))) } : EnvConst) = c at he
    have e1 : c.name = name.constName := by rw [← hc0]
    have hcs : env'.consts = env.consts ++ [c] := by
      rw [← he]
      simp only [Env.defineConst, Env.addDefinition, Env.addNode, Env.addConst, Env.removeConst]
      have h1 := filter_added (consts := env.consts)
        (c := { name := name.recursionName, params, ty := Ty.functional (args.map (·.2)) ret }) hrec
      simp only at h1
      rw [h1, filter_fresh (n := c.name) (e1 ▸ hfr)]
    have ht : env'.types = env.types := by rw [← he]; rfl
    have hns : env'.nodes = env.nodes ++ [.structural (.defn c.name c.params c.ty
      (c.definition.getD (.const c.name (c.params.map .tvar) c.ty)))] := by rw [← he]; rfl
    have := defined_good (F := F) (above := above) (env := env) (env' := env') (c := c) ok (e1 ▸ hfr) hcs ht hns
      (by rw [← hc0]) (by rw [← hc0]) (by rw [← hc0]; exact functional_scope ha hr) ?_
    · refine ⟨this.1, this.2.1, fun hna => this.2.2 ?_⟩
      cases value with
      | none => exact absurd trivial hna
      | some v =>
        refine ⟨Value.mkLam (args.map (·.2)) v, by rw [← hc0]; rfl, ?_⟩
        rw [← hc0]
        exact definable_lam (Classical.byContradiction hna)
    · intro d hd
      rw [← hc0] at hd ⊢
      simp only [Option.map_eq_some_iff] at hd
      obtain ⟨v, rfl, rfl⟩ := hd
      unfold InScope
      rw [ht]
      refine Within.mkLam (args_scope ha) (Within.mono (fun n k hk => ?_) (fun _ h => h) (hv v rfl))
      rcases hk with hk | ⟨rfl, rfl⟩
      · exact known_append hcs hk
      · refine ⟨c, ?_, by rw [← hc0]⟩
        rw [hcs, List.find?_append]
        rw [show env.consts.find? (fun d => d.name == name.constName) = none by
          rw [List.find?_eq_none]
          intro d hd e
          simp only [beq_iff_eq] at e
          exact hfr (List.mem_map.2 ⟨d, hd, e⟩)]
        simp [e1]

end Elab
end Acorn
