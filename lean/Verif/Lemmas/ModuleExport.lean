/-
The proposition that a block exports, and the statements inside a block about its arguments.
-/
import Verif.Lemmas.ModuleFacts
import Verif.Lemmas.ValueLocal
namespace Acorn
namespace Elab

open Spec Spec.Modules Classical

universe u

variable {F : Frame.{u}} {C C' : String → List F.T → F.D} {θ θ' : String → F.T}

mutual

theorem Within.only {cn cn' : String → Nat → Prop} {tn : String → Prop} : ∀ {v : Value}, Within cn tn v →
    (∀ p ∈ v.constants, cn' p.1 p.2.length) → Within cn' tn v
  | .var _ _, h, _ => h
  | .const n ps _, h, hp => ⟨hp (n, ps) (by simp [Value.constants]), h.2⟩
  | .app f as, h, hp => ⟨Within.only h.1 fun p hm => hp p (List.mem_append_left _ hm),
      WithinAll.only h.2 fun p hm => hp p (List.mem_append_right _ hm)⟩
  | .tapp _ _ _, h, _ => h.elim
  | .lam _ _, h, hp => ⟨h.1, Within.only h.2 hp⟩
  | .bin _ a b, h, hp => ⟨Within.only h.1 fun p hm => hp p (List.mem_append_left _ hm),
      Within.only h.2 fun p hm => hp p (List.mem_append_right _ hm)⟩
  | .not a, h, hp => Within.only (v := a) h hp
  | .try_ _ _, h, hp => ⟨Within.only h.1 hp, h.2⟩
  | .all _ _, h, hp => ⟨h.1, Within.only h.2 hp⟩
  | .ex _ _, h, hp => ⟨h.1, Within.only h.2 hp⟩
  | .group a, h, hp => Within.only (v := a) h hp
  | .bool _, _, _ => trivial
  | .ite c a b, h, hp => ⟨Within.only h.1 fun p hm => hp p (List.mem_append_left _ hm),
      Within.only h.2.1 fun p hm => hp p (List.mem_append_right _ (List.mem_append_left _ hm)),
      Within.only h.2.2 fun p hm => hp p (List.mem_append_right _ (List.mem_append_right _ hm))⟩
  | .match_ s cs, h, hp => ⟨Within.only h.1 fun p hm => hp p (List.mem_append_left _ hm),
      WithinCases.only h.2 fun p hm => hp p (List.mem_append_right _ hm)⟩

theorem WithinAll.only {cn cn' : String → Nat → Prop} {tn : String → Prop} : ∀ {vs : List Value}, WithinAll cn tn vs →
    (∀ p ∈ Value.constantsAll vs, cn' p.1 p.2.length) → WithinAll cn' tn vs
  | [], _, _ => trivial
  | _ :: _, h, hp => ⟨Within.only h.1 fun p hm => hp p (List.mem_append_left _ hm),
      WithinAll.only h.2 fun p hm => hp p (List.mem_append_right _ hm)⟩

theorem WithinCases.only {cn cn' : String → Nat → Prop} {tn : String → Prop} : ∀ {cs : List Case},
    WithinCases cn tn cs → (∀ p ∈ Value.constantsCases cs, cn' p.1 p.2.length) → WithinCases cn' tn cs
  | [], _, _ => trivial
  | .mk _ _ _ _ _ :: _, h, hp => ⟨h.1, Within.only h.2.1 fun p hm => hp p (List.mem_append_left _ hm),
      Within.only h.2.2.1 fun p hm => hp p (List.mem_append_right _ (List.mem_append_left _ hm)),
      WithinCases.only h.2.2.2 fun p hm => hp p (List.mem_append_right _ (List.mem_append_right _ hm))⟩

end

/-! ### The names a block exports -/

theorem mem_insertName {n m : String} : ∀ {ns : List String}, n ∈ insertName m ns ↔ n = m ∨ n ∈ ns
  | [] => by simp [insertName]
  | k :: ns => by
    unfold insertName
    split
    · simp
    · split
      · next h => subst h; simp
      · simp only [List.mem_cons, mem_insertName (ns := ns)]
        constructor
        · rintro (h | h | h)
          · exact .inr (.inl h)
          · exact .inl h
          · exact .inr (.inr h)
        · rintro (h | h | h)
          · exact .inr (.inl h)
          · exact .inl h
          · exact .inr (.inr h)

theorem mem_fold_insert {n : String} : ∀ (cs : List (String × List Ty)) (ns : List String),
    n ∈ cs.foldl (fun ns c => insertName c.1 ns) ns ↔ n ∈ ns ∨ ∃ c ∈ cs, c.1 = n
  | [], ns => by simp
  | c :: cs, ns => by
    rw [List.foldl_cons, mem_fold_insert cs, mem_insertName]
    simp only [List.mem_cons, exists_eq_or_imp]
    constructor
    · rintro ((h | h) | h)
      · exact .inr (.inl h.symm)
      · exact .inl h
      · exact .inr (.inr h)
    · rintro (h | h | h)
      · exact .inl (.inr h)
      · exact .inl (.inl h.symm)
      · exact .inr h

theorem unknown_spec {env : Env} {v : Value} {ns : List String} (h : env.unknown v = some ns) :
    (∀ p ∈ v.constants, p.1 ∉ env.names → p.2 = []) ∧
      ∀ n, n ∈ ns ↔ n ∉ env.names ∧ ∃ p ∈ v.constants, p.1 = n := by
  unfold Env.unknown at h
  simp only at h
  split at h
  · next hall =>
    simp only [Option.some.injEq] at h
    subst h
    simp only [List.all_eq_true, List.mem_filter, Bool.not_eq_true', List.contains_eq_mem, decide_eq_false_iff_not,
      List.isEmpty_iff, and_imp] at hall
    refine ⟨fun p hp hn => hall p hp hn, fun n => ?_⟩
    rw [mem_fold_insert]
    simp only [List.not_mem_nil, false_or, List.mem_filter, Bool.not_eq_true', List.contains_eq_mem,
      decide_eq_false_iff_not]
    constructor
    · rintro ⟨p, ⟨hp, hn⟩, rfl⟩
      exact ⟨hn, p, hp, rfl⟩
    · rintro ⟨hn, p, hp, rfl⟩
      exact ⟨p, ⟨hp, hn⟩, rfl⟩
  · cases h

theorem lookup_all {α : Type u} (f : String → α) {n : String} : ∀ {l : List (String × α)}, (∀ p ∈ l, p.2 = f p.1) →
    n ∈ l.map (·.1) → l.lookup n = some (f n)
  | [], _, h => by simp at h
  | (m, x) :: l, hf, h => by
    rw [List.lookup_cons]
    by_cases e : n = m
    · subst e
      simp only [BEq.rfl]
      exact congrArg some (hf (n, x) (List.mem_cons_self ..))
    · rw [show (n == m) = false by simpa using e]
      refine lookup_all f (fun p hp => hf p (List.mem_cons_of_mem _ hp)) ?_
      simp only [List.map_cons, List.mem_cons] at h
      exact h.resolve_left e

theorem pinned_append {names others : List String} {xs ys : List F.D} (hl : names.length = xs.length) (n : String) (ts : List F.T) :
    pinned F C (names ++ others) (xs ++ ys) n ts =
      (((others.zip ys).reverse.lookup n).or ((names.zip xs).reverse.lookup n)).getD (C n ts) := by
  rw [pinned, List.zip_append hl, List.reverse_append, List.lookup_append]

/-- Values for the exported constants: those they have inside the block. -/
theorem pinned_others {names : List String} {others : List (String × Ty)} {xs : List F.D} {C2 : String → List F.T → F.D}
    (hl : names.length = xs.length) {n : String} (ts : List F.T) (hn : n ∈ others.map (·.1)) :
    pinned F C (names ++ others.map (·.1)) (xs ++ others.map fun o => C2 o.1 []) n ts = C2 n [] := by
  rw [pinned_append hl]
  have : ((others.map (·.1)).zip (others.map fun o => C2 o.1 [])).reverse.lookup n = some (C2 n []) := by
    refine lookup_all (fun n => C2 n []) ?_ ?_
    · intro p hp
      rw [List.mem_reverse, List.zip_map', List.mem_map] at hp
      obtain ⟨o, _, rfl⟩ := hp
      rfl
    · rw [List.map_reverse, List.mem_reverse, List.zip_map', List.map_map]
      exact hn
  rw [this]
  rfl

theorem pinned_others_out {names others : List String} {xs ys : List F.D} (hl : names.length = xs.length) {n : String}
    (hn : n ∉ others) : pinned F C (names ++ others) (xs ++ ys) n = pinned F C names xs n := by
  funext ts
  rw [pinned_append hl, lookup_last_out n others ys hn]
  rfl

theorem nodeFact_value {node : EnvNode} {v : Value} (h : node.value = some v) : ∃ ps, nodeFact node = [.prop ps v] := by
  unfold EnvNode.value at h
  split at h <;> simp only [Option.some.injEq, reduceCtorEq] at h <;> subst h <;> exact ⟨_, rfl⟩

theorem nodeFacts_mem {f : EnvFact} {n : EnvNode} (hf : f ∈ nodeFact n) : ∀ {ns : List EnvNode}, n ∈ ns → f ∈ nodeFacts ns
  | [], h => by simp at h
  | m :: ns, h => by
    rcases List.mem_cons.1 h with rfl | h
    · exact List.mem_append_left _ hf
    · exact List.mem_append_right _ (nodeFacts_mem hf h)

/-- What a block exports is in scope outside, and is true when the last proposition of the block is true in
some interpretation of the constants of the block, for all values of its arguments. -/
theorem exported_spec {above : List EnvFact} {env sub : Env} {args : List (String × Ty)} {v' : Value}
    (he : env.exported sub args = some v') (ok : Tidy above sub) (ht : sub.types = env.types)
    (hf : ∀ a ∈ args, a.1 ∉ env.names) (ha : ∀ a ∈ args, TypeInScope env [] a.2)
    (hk : ∀ n ∈ env.names, ∀ k, Known sub n k → Known env n k)
    (hp : ∀ ps v, (.prop ps v) ∈ (sub.nodes.getLast?.toList.flatMap nodeFact) → ps = []) :
    InScope env [] v' ∧ ∀ C θ, (∀ xs, F.Fits xs (F.tys θ (args.map (·.2))) →
      ∃ C2, (∀ n ∈ env.names ++ args.map (·.1), pinned F C (args.map (·.1)) xs n = C2 n) ∧
        Suits F C2 θ sub.consts ∧ AllHold F C2 θ (nodeFacts sub.nodes)) → F.Holds C θ [] v' := by
  unfold Env.exported at he
  simp only [Option.bind_eq_bind, Option.bind_eq_some_iff, Option.pure_def, Option.some.injEq] at he
  obtain ⟨node, hlast, v, hv, ns, hns, rfl⟩ := he
  obtain ⟨ps, hfact⟩ := nodeFact_value hv
  have hps : ps = [] := hp ps v (by rw [hlast]; simp [hfact])
  subst hps
  have hmem : EnvFact.prop [] v ∈ nodeFacts sub.nodes :=
    nodeFacts_mem (n := node) (by rw [hfact]; simp) (List.mem_of_getLast? hlast)
  have w : InScope sub [] v := ok.facts _ (List.mem_append_right _ hmem)
  obtain ⟨hempty, hns⟩ := unknown_spec hns
  generalize hoth : ((ns.filter fun n => !(args.map (·.1)).contains n).filterMap fun n =>
    (sub.consts.find? fun c => c.name == n).map fun c => (n, c.ty)) = others
  have hout : ∀ o ∈ others, o.1 ∉ env.names ∧ o.1 ∉ args.map (·.1) ∧
      ∃ c ∈ sub.consts, c.name = o.1 ∧ c.params = [] ∧ o.2 = c.ty := by
    intro o ho
    rw [← hoth, List.mem_filterMap] at ho
    obtain ⟨n, hn, e⟩ := ho
    simp only [List.mem_filter, Bool.not_eq_true', List.contains_eq_mem, decide_eq_false_iff_not] at hn
    simp only [Option.map_eq_some_iff] at e
    obtain ⟨c, hc, rfl⟩ := e
    obtain ⟨hn1, p, hp, e⟩ := (hns n).1 hn.1
    obtain ⟨c', hc', hlen⟩ := Within.consts w p hp
    rw [e, hc] at hc'
    cases hc'
    rw [hempty p hp (e ▸ hn1)] at hlen
    have hname := List.find?_some hc
    simp only [beq_iff_eq] at hname
    exact ⟨hn1, hn.2, c, List.mem_of_find?_eq_some hc, hname, List.length_eq_zero_iff.1 hlen, rfl⟩
  have hin : ∀ p ∈ v.constants, p.1 ∉ env.names → p.1 ∉ args.map (·.1) → p.1 ∈ others.map (·.1) := by
    intro p hp h1 h2
    obtain ⟨c, hc, _⟩ := Within.consts w p hp
    refine List.mem_map.2 ⟨(p.1, c.ty), ?_, rfl⟩
    rw [← hoth, List.mem_filterMap]
    refine ⟨p.1, ?_, by rw [hc]; rfl⟩
    simp only [List.mem_filter, Bool.not_eq_true', List.contains_eq_mem, decide_eq_false_iff_not]
    exact ⟨(hns p.1).2 ⟨h1, p, hp, rfl⟩, h2⟩
  constructor
  · refine Within.externalize (cn' := fun n k => ∃ p ∈ v.constants, p.1 = n ∧ p.2.length = k) ?_ ?_ ?_
    · rintro n k ⟨p, hp, rfl, rfl⟩
      by_cases h1 : p.1 ∈ env.names
      · exact .inl (hk _ h1 _ (Within.consts w p hp))
      · refine .inr ?_
        rw [List.map_append, List.mem_append]
        by_cases h2 : p.1 ∈ args.map (·.1)
        · exact .inl h2
        · exact .inr (hin p hp h1 h2)
    · intro n hn
      obtain ⟨t, ht', hn⟩ := mem_tysNames.1 hn
      obtain ⟨a, ha', rfl⟩ := List.mem_map.1 ht'
      rcases List.mem_append.1 ha' with h | h
      · exact ha a h n hn
      · obtain ⟨_, _, c, hc, _, hcp, e⟩ := hout a h
        rw [e] at hn
        have := ok.types c hc n hn
        rwa [hcp, ht] at this
    · have w' : Within (Known sub) (fun n => n ∈ [] ++ env.types) v := by rw [← ht]; exact w
      exact Within.only w' fun p hp => ⟨p, hp, rfl, rfl⟩
  · intro C θ hx
    rw [holds_externalize θ args others v (Within.bound w)]
    intro xs hxs
    obtain ⟨C2, hC2, hs, hall⟩ := hx xs hxs
    have hl : (args.map (·.1)).length = xs.length := by
      have := Fits.length hxs
      rw [tys_length] at this
      simpa using this.symm
    refine ⟨others.map fun o => C2 o.1 [], ?_, ?_⟩
    · have : ∀ os : List (String × Ty), (∀ o ∈ os, o ∈ others) →
          F.Fits (os.map fun o => C2 o.1 []) (F.tys θ (os.map (·.2))) := by
        intro os
        induction os with
        | nil => exact fun _ => trivial
        | cons o os ih =>
          intro hos
          refine ⟨?_, ih fun o ho => hos o (List.mem_cons_of_mem _ ho)⟩
          obtain ⟨_, _, c, hc, e1, e2, e3⟩ := hout o (hos o (List.mem_cons_self ..))
          have := hs.typed c hc [] (by rw [e2]; rfl)
          rw [e2, e1] at this
          show F.mem (C2 o.1 []) (F.ty θ o.2)
          rw [e3]
          exact this
      exact this others fun _ h => h
    · have h0 := hall _ hmem [] rfl
      rw [List.map_append]
      unfold Frame.Holds at h0 ⊢
      rw [← h0]
      refine den_consts v [] w fun p hp => ?_
      by_cases h1 : p.1 ∈ env.names
      · rw [pinned_others_out hl fun ho => ?_, hC2 _ (List.mem_append_left _ h1)]
        · obtain ⟨o, ho, e⟩ := List.mem_map.1 ho
          exact (hout o ho).1 (e ▸ h1)
      · by_cases h2 : p.1 ∈ args.map (·.1)
        · rw [pinned_others_out hl fun ho => ?_, hC2 _ (List.mem_append_right _ h2)]
          · obtain ⟨o, ho, e⟩ := List.mem_map.1 ho
            exact (hout o ho).2.1 (e ▸ h2)
        · rw [pinned_others hl _ (hin p hp h1 h2), hempty p hp h1]
          rfl

/-! ### Inside a block -/

theorem pinned_args : ∀ {args : List (String × Ty)} {xs : List F.D}, (args.map (·.1)).Nodup →
    F.Fits xs (F.tys θ (args.map (·.2))) → (args.map fun a => pinned F C (args.map (·.1)) xs a.1 []) = xs
  | [], [], _, _ => rfl
  | [], _ :: _, _, h => h.elim
  | a :: args, [], _, h => h.elim
  | a :: args, x :: xs, hd, h => by
    simp only [List.map_cons] at hd
    obtain ⟨hn, hd⟩ := List.nodup_cons.1 hd
    simp only [List.map_cons, List.cons.injEq]
    constructor
    · simp only [pinned, List.zip_cons_cons, List.reverse_cons, List.lookup_append]
      rw [lookup_last_out a.1 _ xs hn]
      simp
    · refine Eq.trans (List.map_congr_left fun b hb => ?_) (pinned_args hd h.2)
      have hb' : b.1 ∈ args.map (·.1) := List.mem_map.2 ⟨b, hb, rfl⟩
      have hl : (args.map (·.1)).length = xs.length := by
        have := Fits.length h.2
        rw [tys_length] at this
        simpa using this.symm
      simp only [pinned, List.zip_cons_cons, List.reverse_cons, List.lookup_append]
      have : ∃ y, ((args.map (·.1)).zip xs).reverse.lookup b.1 = some y := by
        have e := lookup_last_idx b.1 (args.map (·.1)) xs hl hb'
        rw [e]
        refine ⟨_, List.getElem?_eq_getElem (h := ?_)⟩
        rw [← hl]
        have : 0 < (args.map (·.1)).length := List.length_pos_of_mem hb'
        omega
      obtain ⟨y, hy⟩ := this
      rw [hy]
      rfl

theorem denAll_consts (θ : String → F.T) (st : List F.D) (h : String × Ty → Ty) : ∀ args : List (String × Ty),
    F.denAll C θ st (args.map fun a => .const a.1 [] (h a)) = args.map fun a => C a.1 []
  | [] => rfl
  | a :: args => by
    simp only [List.map_cons, Frame.denAll, denAll_consts θ st h args]
    rfl

/-- A statement about the arguments, inside the block. -/
theorem den_bindBlock {args : List (String × Ty)} {v : Value} (rest : List F.D) (hv : boundNames v = []) :
    F.den C θ rest (bindBlock args v) = F.den C θ ((args.map fun a => C a.1 []) ++ rest) v := by
  unfold bindBlock
  rw [den_toArbitrary]
  have e := den_bindValues (C := C) θ [] rest (argValues args) v (by rw [hv]; simp)
  simp only [List.nil_append, List.length_nil, Nat.zero_add] at e
  have hs : v.bindValues 0 0 (argValues args) = v.bindValues 0 rest.length (argValues args) := by
    refine bindValues_size (fun w hw k => ?_) v _ _
    obtain ⟨a, _, rfl⟩ := List.mem_map.1 hw
    rfl
  rw [hs, e]
  unfold argValues
  rw [denAll_consts]

end Elab
end Acorn
