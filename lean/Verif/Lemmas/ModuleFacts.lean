/-
Facts, goals and interpretations of an environment: what does not matter for them, and how they carry over
to a block.
-/
import Verif.Lemmas.ModuleScope
namespace Acorn
namespace Elab

open Spec Spec.Modules Classical

universe u

variable {F : Frame.{u}} {C C' : String → List F.T → F.D} {θ θ' : String → F.T}

/-! ### Nodes -/

theorem nodeFacts_append : ∀ ns ms : List EnvNode, nodeFacts (ns ++ ms) = nodeFacts ns ++ nodeFacts ms
  | [], _ => rfl
  | n :: ns, ms => by simp only [List.cons_append, nodeFacts, nodeFacts_append ns ms, List.append_assoc]

theorem goalsAt_append : ∀ (ns ms : List EnvNode) (above : List EnvFact),
    goalsAt above (ns ++ ms) = goalsAt above ns ++ goalsAt (above ++ nodeFacts ns) ms
  | [], _, above => by simp only [List.nil_append, nodeFacts, List.append_nil, goalsAt]
  | n :: ns, ms, above => by
    simp only [List.cons_append, goalsAt, nodeFacts, goalsAt_append ns ms, List.append_assoc]

theorem AllHold.append {fs gs : List EnvFact} : AllHold F C θ (fs ++ gs) ↔ AllHold F C θ fs ∧ AllHold F C θ gs := by
  simp only [AllHold, List.mem_append]
  exact ⟨fun h => ⟨fun f hf => h f (.inl hf), fun f hf => h f (.inr hf)⟩, fun h f hf => hf.elim (h.1 f) (h.2 f)⟩

theorem AllHold.nil : AllHold F C θ [] := fun _ h => by simp at h

theorem AllHold.one {f : EnvFact} : AllHold F C θ [f] ↔ FactHolds F C θ f := by
  simp only [AllHold, List.mem_singleton, forall_eq]

/-! ### Type parameters -/

theorem lookup_zip_some {α : Type u} {n : String} : ∀ {ps : List String} {ts : List α}, n ∈ ps →
    ts.length = ps.length → ∃ t, (ps.zip ts).lookup n = some t
  | p :: ps, t :: ts, h, hl => by
    by_cases e : n = p
    · exact ⟨t, by simp [List.zip_cons_cons, List.lookup, e]⟩
    · obtain ⟨u, hu⟩ := lookup_zip_some (ts := ts) ((List.mem_cons.1 h).resolve_left e) (by simpa using hl)
      refine ⟨u, ?_⟩
      rw [List.zip_cons_cons, List.lookup_cons]
      rw [show (n == p) = false by simpa using e]
      exact hu
  | p :: ps, [], _, hl => by simp at hl

theorem with_agree {types ps : List String} {ts : List F.T} (hl : ts.length = ps.length)
    (h : ∀ n ∈ types, θ n = θ' n) : ∀ n ∈ ps ++ types, F.with_ θ (ps.zip ts) n = F.with_ θ' (ps.zip ts) n := by
  intro n hn
  unfold Frame.with_
  by_cases hp : n ∈ ps
  · obtain ⟨t, e⟩ := lookup_zip_some (ts := ts) hp hl
    rw [e]; rfl
  · rw [h n ((List.mem_append.1 hn).resolve_left hp)]

theorem with_nil : F.with_ θ (List.zip [] []) = θ := rfl

theorem with_fresh {types ps : List String} {ts : List F.T} (h : ∀ p ∈ ps, p ∉ types) :
    ∀ n ∈ types, θ n = F.with_ θ (ps.zip ts) n := by
  intro n hn
  rw [with_zip_other θ fun hp => h n hp hn]

/-- The parameters mean what they are made to mean. -/
theorem map_with (θ : String → F.T) : ∀ {ps : List String} {ts : List F.T}, ps.Nodup → ts.length = ps.length →
    ps.map (F.with_ θ (ps.zip ts)) = ts
  | [], [], _, _ => rfl
  | [], _ :: _, _, hl => by simp at hl
  | p :: ps, [], _, hl => by simp at hl
  | p :: ps, t :: ts, hd, hl => by
    obtain ⟨hp, hd⟩ := List.nodup_cons.1 hd
    simp only [List.map_cons]
    congr 1
    · simp [Frame.with_, List.zip_cons_cons]
    · refine Eq.trans (List.map_congr_left fun q hq => ?_) (map_with θ hd (by simpa using hl))
      simp only [Frame.with_, List.zip_cons_cons, List.lookup_cons]
      rw [show (q == p) = false by
        rw [beq_eq_false_iff_ne]; rintro rfl; exact hp hq]

theorem functional_inj_bool {us ws : List Ty} (h : Ty.functional us .bool = Ty.functional ws .bool) : us = ws := by
  cases us <;> cases ws <;> simp [Ty.functional] at h ⊢
  exact h

/-! ### Only what is in scope matters -/

theorem _root_.Acorn.Spec.Modules.Known.mem {env : Env} {n : String} {k : Nat} (h : Known env n k) : n ∈ env.names := by
  obtain ⟨c, hc, _⟩ := h
  have := List.find?_some hc
  simp only [beq_iff_eq] at this
  exact List.mem_map.2 ⟨c, List.mem_of_find?_eq_some hc, this⟩

theorem den_scope {env : Env} {ps : List String} {ts : List F.T} {v : Value} (st : List F.D)
    (w : InScope env ps v) (hl : ts.length = ps.length) (hc : ∀ n ∈ env.names, C n = C' n)
    (ht : ∀ n ∈ env.types, θ n = θ' n) :
    F.den C (F.with_ θ (ps.zip ts)) st v = F.den C' (F.with_ θ' (ps.zip ts)) st v :=
  den_within st w (fun n _ h => hc n h.mem) (with_agree hl ht)

theorem den_scope0 {env : Env} {v : Value} (st : List F.D) (w : InScope env [] v)
    (hc : ∀ n ∈ env.names, C n = C' n) (ht : ∀ n ∈ env.types, θ n = θ' n) :
    F.den C θ st v = F.den C' θ' st v := den_scope (ts := []) st w rfl hc ht

theorem tys_scope {env : Env} {ps : List String} {ts : List F.T} {us : List Ty}
    (w : ∀ n ∈ tysNames us, n ∈ ps ++ env.types) (hl : ts.length = ps.length) (ht : ∀ n ∈ env.types, θ n = θ' n) :
    F.tys (F.with_ θ (ps.zip ts)) us = F.tys (F.with_ θ' (ps.zip ts)) us :=
  tys_congr us fun n hn => with_agree hl ht n (w n hn)

theorem ty_scope {env : Env} {ps : List String} {ts : List F.T} {t : Ty}
    (w : TypeInScope env ps t) (hl : ts.length = ps.length) (ht : ∀ n ∈ env.types, θ n = θ' n) :
    F.ty (F.with_ θ (ps.zip ts)) t = F.ty (F.with_ θ' (ps.zip ts)) t :=
  ty_congr t fun n hn => with_agree hl ht n (w n hn)

theorem fact_agree {env : Env} {f : EnvFact} (w : FactInScope env f) (hc : ∀ n ∈ env.names, C n = C' n)
    (ht : ∀ n ∈ env.types, θ n = θ' n) (h : FactHolds F C θ f) : FactHolds F C' θ' f := by
  cases f with
  | prop ps v =>
    intro ts hl
    have := h ts hl
    unfold Frame.Holds at this ⊢
    rwa [← den_scope [] w hl hc ht]
  | defn n ps t d =>
    intro ts hl
    rw [← den_scope [] w.2 hl hc ht, ← hc n w.1]
    exact h ts hl

theorem suits_agree {above : List EnvFact} {env : Env} (ok : Tidy above env) (hc : ∀ n ∈ env.names, C n = C' n)
    (ht : ∀ n ∈ env.types, θ n = θ' n) (h : Suits F C θ env.consts) : Suits F C' θ' env.consts := by
  have hn : ∀ c ∈ env.consts, C c.name = C' c.name := fun c hm => hc _ (List.mem_map.2 ⟨c, hm, rfl⟩)
  constructor
  · intro c hm ts hl
    rw [← hn c hm, ← ty_scope (ok.types c hm) hl ht]
    exact h.typed c hm ts hl
  · intro c hm hth d hd ts hl
    rw [← hn c hm, ← den_scope [] (ok.definitions c hm d hd) hl hc ht]
    exact h.named c hm hth d hd ts hl
  · intro d total ts hex
    obtain ⟨cs, hl, hfree, hall⟩ := h.free d total ts hex
    refine ⟨cs, hl, hfree, fun c hm i hcon hl us hty => ?_⟩
    have hus : ∀ n ∈ tysNames us, n ∈ c.params ++ env.types := fun n hn' =>
      ok.types c hm n (by rw [hty, names_functional]; exact .inl hn')
    rw [hall c hm i hcon hl us hty]
    simp only [constructorIn, tys_scope hus hl ht, hn c hm]

/-- Every element of a datatype is made by the constructor of some number. -/
theorem Suits.covered {known : List EnvConst} (h : Suits F C θ known) (d : String) (total : Nat)
    (ts : List F.T) (hex : ∃ c ∈ known, (∃ i, c.con = some (d, i, total)) ∧ ts.length = c.params.length) (x : F.D) (hx : F.mem x (F.data d ts)) :
    ∃ i < total, ∀ c ∈ known, c.con = some (d, i, total) → ts.length = c.params.length →
      ∀ us, c.ty = Ty.functional us (.data d (c.params.map .tvar)) →
        ∃ xs, F.Fits xs (F.tys (F.with_ θ (c.params.zip ts)) us) ∧ F.appN (C c.name ts) xs = x := by
  obtain ⟨cs, hl, hfree, hall⟩ := h.free d total ts hex
  obtain ⟨k, hk, xs, hxs, e⟩ := hfree.cover x hx
  obtain ⟨i, hi⟩ := List.mem_iff_getElem?.1 hk
  refine ⟨i, hl ▸ (List.getElem?_eq_some_iff.1 hi).1, fun c hm hcon hl us hty => ?_⟩
  have := Option.some.inj (hi.symm.trans (hall c hm i hcon hl us hty))
  subst this
  exact ⟨xs, hxs, e.symm⟩

theorem theorems_agree {above : List EnvFact} {env : Env} (ok : Tidy above env) (hc : ∀ n ∈ env.names, C n = C' n)
    (ht : ∀ n ∈ env.types, θ n = θ' n) (h : TheoremsTrue F C θ env.consts) : TheoremsTrue F C' θ' env.consts := by
  intro c hm hth us hty ts hl xs hxs
  rw [← hc _ (List.mem_map.2 ⟨c, hm, rfl⟩)]
  refine h c hm hth us hty ts hl xs ?_
  have hus : ∀ n ∈ tysNames us, n ∈ c.params ++ env.types := fun n hn' =>
    ok.types c hm n (by rw [hty, names_functional]; exact .inl hn')
  rwa [tys_scope hus hl ht]

theorem fulfils_agree {above : List EnvFact} {env : Env} (ok : Tidy above env) (hc : ∀ n ∈ env.names, C n = C' n)
    (ht : ∀ n ∈ env.types, θ n = θ' n) (h : Fulfils F C θ above env) : Fulfils F C' θ' above env :=
  ⟨suits_agree ok hc ht h.suits, fun f hf => fact_agree (ok.facts f hf) hc ht (h.facts f hf),
    theorems_agree ok hc ht h.theorems⟩

/-! ### New constants -/

theorem Suits.subset {known known' : List EnvConst} (h : Suits F C θ known') (hs : ∀ c ∈ known, c ∈ known') :
    Suits F C θ known := by
  refine ⟨fun c hc => h.typed c (hs c hc), fun c hc => h.named c (hs c hc), fun d total ts hex => ?_⟩
  obtain ⟨c, hc, e⟩ := hex
  obtain ⟨cs, hl, hfree, hall⟩ := h.free d total ts ⟨c, hs c hc, e⟩
  exact ⟨cs, hl, hfree, fun c hc => hall c (hs c hc)⟩

theorem suits_add {known new : List EnvConst} (h : Suits F C θ known)
    (ht : ∀ c ∈ new, ∀ ts, ts.length = c.params.length → F.mem (C c.name ts) (F.ty (F.with_ θ (c.params.zip ts)) c.ty))
    (hn : ∀ c ∈ new, c.isTheorem = true → ∀ d, c.definition = some d → ∀ ts, ts.length = c.params.length →
      C c.name ts = F.den C (F.with_ θ (c.params.zip ts)) [] d)
    (hc : ∀ c ∈ new, c.con = none) : Suits F C θ (known ++ new) := by
  constructor
  · intro c hm; rcases List.mem_append.1 hm with hm | hm
    · exact h.typed c hm
    · exact ht c hm
  · intro c hm; rcases List.mem_append.1 hm with hm | hm
    · exact h.named c hm
    · exact hn c hm
  · rintro d total ts ⟨c, hm, ⟨i, e⟩, el⟩
    rcases List.mem_append.1 hm with hm | hm
    · obtain ⟨cs, hl, hfree, hall⟩ := h.free d total ts ⟨c, hm, ⟨i, e⟩, el⟩
      refine ⟨cs, hl, hfree, fun c' hm' i' e' => ?_⟩
      rcases List.mem_append.1 hm' with hm' | hm'
      · exact hall c' hm' i' e'
      · rw [hc c' hm'] at e'; cases e'
    · rw [hc c hm] at e; cases e

theorem theorems_add {known new : List EnvConst} (h : TheoremsTrue F C θ known)
    (hn : ∀ c ∈ new, c.isTheorem = false) : TheoremsTrue F C θ (known ++ new) := by
  intro c hm hth
  rcases List.mem_append.1 hm with hm | hm
  · exact h c hm hth
  · rw [hn c hm] at hth; cases hth

theorem filter_fresh {consts : List EnvConst} {n : String} (h : n ∉ consts.map (·.name)) :
    consts.filter (fun d => d.name != n) = consts := by
  rw [List.filter_eq_self]
  intro c hc
  simp only [bne_iff_ne, ne_eq]
  rintro rfl
  exact h (List.mem_map.2 ⟨c, hc, rfl⟩)

theorem addConst_fresh {env : Env} {c : EnvConst} (h : c.name ∉ env.names) :
    (env.addConst c).consts = env.consts ++ [c] := by
  simp only [Env.addConst]
  rw [filter_fresh h]

theorem inUse_fresh {env : Env} {n : String} (h : env.inUse n = false) : n ∉ env.names := by
  simp only [Env.inUse, Bool.or_eq_false_iff, List.contains_eq_mem, decide_eq_false_iff_not] at h
  exact h.1

theorem mem_of_lookup {α : Type u} {n : String} {t : α} : ∀ {l : List (String × α)}, l.lookup n = some t → (n, t) ∈ l
  | [], h => by simp at h
  | (m, u) :: l, h => by
    rw [List.lookup_cons] at h
    by_cases e : n = m
    · subst e
      simp only [BEq.rfl, Option.some.injEq] at h
      exact h ▸ List.mem_cons_self ..
    · rw [show (n == m) = false by simpa using e] at h
      exact List.mem_cons_of_mem _ (mem_of_lookup h)

/-! ### The arguments of a block -/

/-- The constant of an argument, with its type in another form. -/
def argConst (g : Ty → Ty) (a : String × Ty) : EnvConst := { name := a.1, params := [], ty := g a.2 }

theorem addConst_consts {e : Env} {c d : EnvConst} (h : c ∈ (e.addConst d).consts) :
    (c ∈ e.consts ∧ c.name ≠ d.name) ∨ c = d := by
  simp only [Env.addConst, List.mem_append, List.mem_filter, bne_iff_ne, ne_eq, List.mem_singleton] at h
  exact h

theorem fold_consts (g : Ty → Ty) : ∀ (args : List (String × Ty)) (e : Env) (c : EnvConst),
    c ∈ (args.foldl (fun e a => e.addConst (argConst g a)) e).consts →
    (c ∈ e.consts ∧ c.name ∉ args.map (·.1)) ∨
      ∃ t, args.reverse.lookup c.name = some t ∧ c = argConst g (c.name, t)
  | [], e, c, h => .inl ⟨h, by simp⟩
  | a :: args, e, c, h => by
    rcases fold_consts g args _ c h with ⟨h1, h2⟩ | ⟨t, h1, h2⟩
    · rcases addConst_consts h1 with ⟨h1, h3⟩ | rfl
      · exact .inl ⟨h1, by simp only [List.map_cons, List.mem_cons, not_or]; exact ⟨h3, h2⟩⟩
      · refine .inr ⟨a.2, ?_, rfl⟩
        rw [List.reverse_cons, List.lookup_append]
        rw [show args.reverse.lookup (argConst g a).name = none by
          rw [List.lookup_eq_none_iff]
          intro p hp
          simp only [bne_iff_ne, ne_eq]
          intro e'
          exact h2 (List.mem_map.2 ⟨p, List.mem_reverse.1 hp, e'.symm⟩)]
        simp [argConst, List.lookup]
    · refine .inr ⟨t, ?_, h2⟩
      rw [List.reverse_cons, List.lookup_append, h1]
      rfl

theorem fold_old (g : Ty → Ty) : ∀ (args : List (String × Ty)) (e : Env) (c : EnvConst), c ∈ e.consts →
    c.name ∉ args.map (·.1) → c ∈ (args.foldl (fun e a => e.addConst (argConst g a)) e).consts
  | [], _, _, h, _ => h
  | a :: args, e, c, h, hn => by
    simp only [List.map_cons, List.mem_cons, not_or] at hn
    refine fold_old g args _ c ?_ hn.2
    simp only [Env.addConst, List.mem_append, List.mem_filter, bne_iff_ne, ne_eq]
    exact .inl ⟨h, hn.1⟩

theorem fold_rest (g : Ty → Ty) : ∀ (args : List (String × Ty)) (e : Env),
    (args.foldl (fun e a => e.addConst (argConst g a)) e).nodes = e.nodes ∧
    (args.foldl (fun e a => e.addConst (argConst g a)) e).types = e.types
  | [], _ => ⟨rfl, rfl⟩
  | _ :: args, _ => fold_rest g args _

theorem fold_find (g : Ty → Ty) (n : String) : ∀ (args : List (String × Ty)) (e : Env), n ∉ args.map (·.1) →
    (args.foldl (fun e a => e.addConst (argConst g a)) e).consts.find? (fun c => c.name == n) =
      e.consts.find? (fun c => c.name == n)
  | [], _, _ => rfl
  | a :: args, e, hn => by
    simp only [List.map_cons, List.mem_cons, not_or] at hn
    rw [List.foldl_cons, fold_find g n args _ hn.2]
    simp only [Env.addConst, List.find?_append, List.find?_filter]
    have h1 : (List.find? (fun c => c.name == n) [argConst g a]) = none := by
      rw [List.find?_eq_none]
      intro c hc
      rw [List.mem_singleton.1 hc]
      simp only [beq_iff_eq]
      exact fun e => hn.1 e.symm
    rw [h1, Option.or_none]
    congr 1
    funext c
    by_cases e : c.name = n
    · have : c.name ≠ a.1 := e ▸ hn.1
      simp [e, argConst, hn.1]
    · simp [e]

theorem fold_known (g : Ty → Ty) : ∀ (args : List (String × Ty)) (e : Env) (n : String), n ∈ args.map (·.1) →
    Known (args.foldl (fun e a => e.addConst (argConst g a)) e) n 0
  | [], _, n, h => by simp at h
  | a :: args, e, n, h => by
    by_cases hn : n ∈ args.map (·.1)
    · exact fold_known g args _ n hn
    · simp only [List.map_cons, List.mem_cons, hn, or_false] at h
      refine ⟨argConst g a, ?_, rfl⟩
      rw [List.foldl_cons, fold_find g n args _ hn]
      simp only [Env.addConst, List.find?_append]
      rw [show (List.filter (fun d => d.name != (argConst g a).name) e.consts).find? (fun c => c.name == n) = none by
        rw [List.find?_eq_none]
        intro c hc
        simp only [List.mem_filter, bne_iff_ne, ne_eq] at hc
        simp only [beq_iff_eq]
        exact fun e => hc.2 (e.trans h)]
      simp [argConst, h]

/-- The last argument of a name has a value of its type. -/
theorem last_fits : ∀ {args : List (String × Ty)} {xs : List F.D} {n : String} {t : Ty},
    F.Fits xs (F.tys θ (args.map (·.2))) → args.reverse.lookup n = some t →
    ∃ x, ((args.map (·.1)).zip xs).reverse.lookup n = some x ∧ F.mem x (F.ty θ t)
  | [], _, _, _, _, h => by simp at h
  | a :: args, [], _, _, hf, _ => hf.elim
  | a :: args, x :: xs, n, t, hf, h => by
    rw [List.reverse_cons, List.lookup_append] at h
    simp only [List.map_cons, List.zip_cons_cons, List.reverse_cons, List.lookup_append]
    cases hr : args.reverse.lookup n with
    | some u =>
      rw [hr] at h
      cases h
      obtain ⟨y, hy, hm⟩ := last_fits (args := args) hf.2 hr
      exact ⟨y, by rw [hy]; rfl, hm⟩
    | none =>
      rw [hr] at h
      have hn : n ∉ args.map (·.1) := by
        intro hn
        obtain ⟨p, hp, rfl⟩ := List.mem_map.1 hn
        have := List.lookup_eq_none_iff.1 hr p (List.mem_reverse.2 hp)
        simp at this
      rw [lookup_last_out n _ xs hn]
      obtain ⟨m, u⟩ := a
      simp only [Option.none_or, List.lookup_cons, List.lookup_nil] at h ⊢
      by_cases e : n = m
      · subst e
        simp only [BEq.rfl, Option.some.injEq] at h ⊢
        subst h
        exact ⟨x, rfl, hf.1⟩
      · rw [show (n == m) = false by simpa using e] at h
        simp at h

theorem pinned_out {names : List String} {xs : List F.D} {n : String} (h : n ∉ names) :
    pinned F C names xs n = C n := by
  funext ts
  rw [pinned, lookup_last_out n names xs h]
  rfl

/-- The environment of a block, with its arguments as constants: `g` is the form the types of the arguments
get. -/
structure IsBlock (env : Env) (params : List String) (args : List (String × Ty)) (g : Ty → Ty) (inner : Env) : Prop where
  typesEq : inner.types = env.types ++ params
  nodesEq : inner.nodes = []
  constsEq : ∃ base : Env, base.consts = env.consts ∧
    inner.consts = (args.foldl (fun e a => e.addConst (argConst g a)) base).consts

theorem isBlock_child (env : Env) (params : List String) (args : List (String × Ty)) :
    IsBlock env params args Ty.toArbitrary (env.child params args) := by
  have := fold_rest Ty.toArbitrary args { env with depth := env.depth + 1, types := env.types ++ params, nodes := [] }
  exact ⟨this.2, this.1, { env with depth := env.depth + 1, types := env.types ++ params, nodes := [] }, rfl, rfl⟩

section block

variable {above : List EnvFact} {env inner : Env} {params : List String} {args : List (String × Ty)} {g : Ty → Ty}

theorem IsBlock.mem (hb : IsBlock env params args g inner) {c : EnvConst} (h : c ∈ inner.consts) :
    (c ∈ env.consts ∧ c.name ∉ args.map (·.1)) ∨
      ∃ t, args.reverse.lookup c.name = some t ∧ c = argConst g (c.name, t) := by
  obtain ⟨base, hbase, e⟩ := hb.constsEq
  rw [e] at h
  rw [← hbase]
  exact fold_consts g args base c h

theorem IsBlock.known (hb : IsBlock env params args g inner) {n : String} {k : Nat} (hn : n ∉ args.map (·.1))
    (h : Known env n k) : Known inner n k := by
  obtain ⟨base, hbase, e⟩ := hb.constsEq
  obtain ⟨c, hc, hk⟩ := h
  refine ⟨c, ?_, hk⟩
  rw [e, fold_find g n args base hn, hbase]
  exact hc

theorem IsBlock.knownArg (hb : IsBlock env params args g inner) {n : String} (hn : n ∈ args.map (·.1)) :
    Known inner n 0 := by
  obtain ⟨base, hbase, e⟩ := hb.constsEq
  have := fold_known g args base n hn
  unfold Known at this ⊢
  rwa [e]

theorem IsBlock.old (hb : IsBlock env params args g inner) (hf : ∀ a ∈ args, a.1 ∉ env.names) {c : EnvConst}
    (h : c ∈ env.consts) : c ∈ inner.consts := by
  obtain ⟨base, hbase, e⟩ := hb.constsEq
  rw [e]
  refine fold_old g args base c (hbase ▸ h) fun hn => ?_
  obtain ⟨a, ha, e⟩ := List.mem_map.1 hn
  exact hf a ha (e ▸ List.mem_map.2 ⟨c, h, rfl⟩)

theorem fresh_names {n : String} (hf : ∀ a ∈ args, a.1 ∉ env.names) (h : n ∈ env.names) : n ∉ args.map (·.1) := by
  intro hn
  obtain ⟨a, ha, rfl⟩ := List.mem_map.1 hn
  exact hf a ha h

theorem IsBlock.scope (hb : IsBlock env params args g inner) (hf : ∀ a ∈ args, a.1 ∉ env.names) {ps : List String}
    {v : Value} (h : InScope env ps v) : InScope inner ps v := by
  refine Within.mono (fun n k hk => hb.known (fresh_names hf hk.mem) hk) (fun n hn => ?_) h
  simp only [hb.typesEq, List.mem_append] at hn ⊢
  exact hn.elim .inl fun h => .inr (.inl h)

/-- What is known in a block uses only what is known there. -/
theorem IsBlock.tidy (hb : IsBlock env params args g inner) (ok : Tidy above env) (hf : ∀ a ∈ args, a.1 ∉ env.names)
    (hg : ∀ n t, n ∈ tyNames (g t) → n ∈ tyNames t) (ha : ∀ a ∈ args, TypeInScope env params a.2) :
    Tidy (above ++ nodeFacts env.nodes) inner := by
  have ht : ∀ {ps : List String} {n : String}, n ∈ ps ++ env.types → n ∈ ps ++ inner.types := by
    intro ps n hn
    simp only [hb.typesEq, List.mem_append] at hn ⊢
    exact hn.elim .inl fun h => .inr (.inl h)
  constructor
  · intro c hc n hn
    rcases hb.mem hc with ⟨h, _⟩ | ⟨t, h, e⟩
    · exact ht (ok.types c h n hn)
    · rw [e] at hn ⊢
      have hm : (c.name, t) ∈ args := List.mem_reverse.1 (mem_of_lookup h)
      have := ha _ hm n (hg n t hn)
      simp only [argConst, hb.typesEq, List.mem_append, List.nil_append] at this ⊢
      exact this.symm
  · intro c hc d hd
    rcases hb.mem hc with ⟨h, _⟩ | ⟨t, h, e⟩
    · exact hb.scope hf (ok.definitions c h d hd)
    · rw [e] at hd; cases hd
  · intro f hf'
    rw [hb.nodesEq] at hf'
    simp only [nodeFacts, List.append_nil] at hf'
    have := ok.facts f hf'
    cases f with
    | prop ps v => exact hb.scope hf this
    | defn n ps t d =>
      refine ⟨?_, hb.scope hf this.2⟩
      obtain ⟨c, hc, e⟩ := List.mem_map.1 this.1
      exact List.mem_map.2 ⟨c, hb.old hf hc, e⟩

/-- An interpretation that fulfils an environment, with values for the arguments and types for the type
parameters of a block, fulfils the block. -/
theorem IsBlock.fulfils (hb : IsBlock env params args g inner) (ok : Tidy above env) (hf : ∀ a ∈ args, a.1 ∉ env.names)
    (hp : ∀ p ∈ params, p ∉ env.types) (hg : ∀ θ t, F.ty θ (g t) = F.ty θ t) (h : Fulfils F C θ above env)
    {ts : List F.T} (hl : ts.length = params.length) {xs : List F.D}
    (hxs : F.Fits xs (F.tys (F.with_ θ (params.zip ts)) (args.map (·.2)))) :
    Fulfils F (pinned F C (args.map (·.1)) xs) (F.with_ θ (params.zip ts)) (above ++ nodeFacts env.nodes) inner := by
  have _ := hl
  have hC : ∀ n ∈ env.names, C n = pinned F C (args.map (·.1)) xs n := fun n hn =>
    (pinned_out (fresh_names hf hn)).symm
  have h' := fulfils_agree ok hC (with_fresh (θ := θ) (ts := ts) hp) h
  constructor
  · constructor
    · intro c hc us hus
      rcases hb.mem hc with ⟨hm, _⟩ | ⟨t, hm, e⟩
      · exact h'.suits.typed c hm us hus
      · obtain ⟨x, hx, hx'⟩ := last_fits hxs hm
        rw [pinned, hx, e]
        rw [e] at hus
        simp only [argConst, List.length_nil, List.length_eq_zero_iff] at hus
        subst hus
        simp only [argConst, hg]
        exact hx'
    · intro c hc hth d hd us hus
      rcases hb.mem hc with ⟨hm, _⟩ | ⟨t, hm, e⟩
      · exact h'.suits.named c hm hth d hd us hus
      · rw [e] at hth; cases hth
    · rintro d total us ⟨c, hc, ⟨i, e⟩, el⟩
      rcases hb.mem hc with ⟨hm, _⟩ | ⟨t, hm, e'⟩
      · obtain ⟨cs, hl, hfree, hall⟩ := h'.suits.free d total us ⟨c, hm, ⟨i, e⟩, el⟩
        refine ⟨cs, hl, hfree, fun c' hc' i' e'' => ?_⟩
        rcases hb.mem hc' with ⟨hm', _⟩ | ⟨t, hm', e'⟩
        · exact hall c' hm' i' e''
        · rw [e'] at e''; cases e''
      · rw [e'] at e; cases e
  · rw [hb.nodesEq]
    simp only [nodeFacts, List.append_nil]
    exact h'.facts
  · intro c hc hth
    rcases hb.mem hc with ⟨hm, _⟩ | ⟨t, hm, e⟩
    · exact h'.theorems c hm hth
    · rw [e] at hth; cases hth

end block

end Elab
end Acorn
