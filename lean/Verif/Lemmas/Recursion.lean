/-
A recursive definition that passes the termination check depends only on smaller values.
-/
import Verif.Spec.Recursion
import Verif.Model.Recursion
import Verif.Lemmas.Termination
import Verif.Lemmas.LoweringValues
namespace Acorn
namespace Elab

open Spec Termination

universe u

theorem traverse_less {name : Nat} {v : Val} {map : List (Option Nat)} {s s' : List Bool}
    (h : traverse name map s v = some s') {i : Nat} (hi : s'[i]? = some true) : s[i]? = some true :=
  ((((sound_all (D := Unit) (lt := fun _ _ => True) (ev := fun _ _ => ()) (name := name) (fun _ _ _ _ => rfl) 0 v.size).1 v
    (Nat.le_refl _)) map s s' h).1).2 i hi

theorem traverseAll_less {name : Nat} {vs : List Val} {map : List (Option Nat)} {s s' : List Bool}
    (h : traverseAll name map s vs = some s') {i : Nat} (hi : s'[i]? = some true) : s[i]? = some true :=
  ((((sound_all (D := Unit) (lt := fun _ _ => True) (ev := fun _ _ => ()) (name := name) (fun _ _ _ _ => rfl) 0 (Val.sizes vs)).2.1 vs
    (Nat.le_refl _)) map s s' h).1).2 i hi

theorem traverseCases_less {name : Nat} {cs : List (Nat × Val × Val)} {map : List (Option Nat)} {sup : Option Nat} {s s' : List Bool}
    (h : traverseCases name map s sup cs = some s') {i : Nat} (hi : s'[i]? = some true) : s[i]? = some true :=
  ((((sound_all (D := Unit) (lt := fun _ _ => True) (ev := fun _ _ => ()) (name := name) (fun _ _ _ _ => rfl) 0 (Val.caseSizes cs)).2.2 cs
    (Nat.le_refl _)) map s sup s' h).1).2 i hi

theorem shapes_append (f : String) : ∀ as bs : List Value, Value.shapes f (as ++ bs) = Value.shapes f as ++ Value.shapes f bs
  | [], _ => rfl
  | a :: as, bs => by simp [Value.shapes, shapes_append f as bs]

theorem shape_apply (f : String) (g : Value) (as : List Value) :
    (g.apply as).shape f = Val.apply (g.shape f) (Value.shapes f as) := by
  cases as with
  | nil => rfl
  | cons a as => rfl

theorem shapes_get (f : String) : ∀ (as : List Value) (i : Nat), (Value.shapes f as)[i]? = (as[i]?).map (Value.shape f)
  | [], _ => rfl
  | a :: as, 0 => rfl
  | a :: as, i + 1 => by simpa [Value.shapes] using shapes_get f as i

theorem argsOk_append {S : Theory} {Γ : List Ty} : ∀ (as bs : List Value) (u v t : Ty), ArgsOk S Γ as u v → ArgsOk S Γ bs v t →
    ArgsOk S Γ (as ++ bs) u t
  | [], bs, u, v, t, h1, h2 => by
    simp only [ArgsOk] at h1
    subst h1
    exact h2
  | a :: as, bs, u, v, t, ⟨p, ps, r, e, ha, h1⟩, h2 => ⟨p, ps, r, e, ha, argsOk_append as bs _ v t h1 h2⟩

variable {F : Frame.{u}} {C1 C2 : String → List F.T → F.D} {θ : String → F.T} {S : Theory}
variable {f : String} {ts : List F.T} {us : List Ty} {r A : Ty} {i : Nat} {x : F.D}

theorem SuitsApart.covers {C : String → List F.T → F.D} (h : SuitsApart F C θ S f) (d : String) (as : List Ty)
    (ks : List (String × List Ty × List Ty)) (hk : S.constructors d as ks) (x : F.D) (hx : F.mem x (F.ty θ (.data d as))) :
    ∃ k ∈ ks, ∃ xs, F.Fits xs (F.tys θ k.2.2) ∧ F.appN (C k.1 (F.tys θ k.2.1)) xs = x := by
  obtain ⟨c, hc, xs, h1, h2⟩ := (h.free d as ks hk).cover x hx
  obtain ⟨k, hkm, rfl⟩ := List.mem_map.1 hc
  exact ⟨k, hkm, xs, h1, h2.symm⟩

/-- The substructure map is right about position `i`. -/
structure RecMap (C : String → List F.T → F.D) (θ : String → F.T) (S : Theory) (A : Ty) (i : Nat) (x : F.D)
    (Γ : List Ty) (env : List F.D) (map : List (Option Nat)) : Prop where
  len : map.length = env.length
  types : Γ.length = env.length
  here : env[i]? = some x ∧ Γ[i]? = some A
  sub : ∀ j : Nat, map[j]? = some (some i) → j ≠ i → ∃ y t, env[j]? = some y ∧ Γ[j]? = some t ∧ Field F C θ S A y t x

theorem RecMap.extend {C : String → List F.T → F.D} {Γ ts : List Ty} {env ds : List F.D} {map : List (Option Nat)}
    (h : RecMap C θ S A i x Γ env map) (hl : ds.length = ts.length) (sup : Option Nat)
    (hs : sup = some i → ∀ (j : Nat) y t, ds[j]? = some y → ts[j]? = some t → Field F C θ S A y t x) :
    RecMap C θ S A i x (Γ ++ ts) (env ++ ds) (map ++ List.replicate ts.length sup) := by
  have hle : i < env.length := (List.getElem?_eq_some_iff.1 h.here.1).1
  have hle' : i < Γ.length := (List.getElem?_eq_some_iff.1 h.here.2).1
  refine ⟨by simp [h.len, hl], by simp [h.types, hl], ⟨?_, ?_⟩, fun j hj hne => ?_⟩
  · rw [List.getElem?_append_left hle]; exact h.here.1
  · rw [List.getElem?_append_left hle']; exact h.here.2
  · by_cases hjl : j < map.length
    · rw [List.getElem?_append_left hjl] at hj
      obtain ⟨y, t, h1, h2, h3⟩ := h.sub j hj hne
      refine ⟨y, t, ?_, ?_, h3⟩
      · rw [List.getElem?_append_left (by rw [← h.len]; exact hjl)]; exact h1
      · rw [List.getElem?_append_left (by rw [h.types, ← h.len]; exact hjl)]; exact h2
    · rw [List.getElem?_append_right (by omega), List.getElem?_replicate] at hj
      split at hj
      · rename_i hlt
        have hsup : sup = some i := by simpa using hj
        have e1 : (env ++ ds)[j]? = ds[j - map.length]? := by
          rw [List.getElem?_append_right (by rw [← h.len]; omega), h.len]
        have e2 : (Γ ++ ts)[j]? = ts[j - map.length]? := by
          rw [List.getElem?_append_right (by rw [h.types, ← h.len]; omega), h.types, h.len]
        obtain ⟨t, ht⟩ : ∃ t, ts[j - map.length]? = some t := ⟨_, List.getElem?_eq_getElem hlt⟩
        obtain ⟨y, hy⟩ : ∃ y, ds[j - map.length]? = some y := ⟨_, List.getElem?_eq_getElem (by rw [hl]; exact hlt)⟩
        exact ⟨y, t, e1.trans hy, e2.trans ht, hs hsup _ y t hy ht⟩
      · cases hj

/-- What is known of the two interpretations: they differ at most at `f`, and agree on calls of `f` at smaller arguments. -/
structure Near (C1 C2 : String → List F.T → F.D) (θ : String → F.T) (S : Theory) (f : String) (ts : List F.T) (us : List Ty)
    (r A : Ty) (i : Nat) (x : F.D) : Prop where
  others : ∀ n, n ≠ f → C1 n = C2 n
  suits : SuitsApart F C1 θ S f
  pos : us[i]? = some A
  calls : ∀ ys, F.Fits ys (F.tys θ (us.take (i + 1))) → ∀ y, ys[i]? = some y → Field F C1 θ S A y A x →
    F.appN (C1 f ts) ys = F.appN (C2 f ts) ys ∧
      F.mem (F.appN (C1 f ts) ys) (F.fnN (F.tys θ (us.drop (i + 1))) (F.ty θ r))

theorem pick_same {P Q : List F.D → Prop} {k l : List F.D → F.D} {e e' : F.D} (h1 : ∀ xs, P xs ↔ Q xs)
    (h2 : ∀ xs, P xs → k xs = l xs) (h3 : (¬ ∃ xs, P xs) → e = e') : F.pick P k e = F.pick Q l e' := by
  have : P = Q := funext fun xs => propext (h1 xs)
  subst this
  unfold Frame.pick
  split
  · exact h2 _ (Classical.choose_spec _)
  · rename_i h; exact h3 h

/-- The function type that is left after some arguments. -/
def restFn (us : List Ty) (r : Ty) : Ty := if us.isEmpty then r else .fn us r

theorem ty_restFn (us : List Ty) (r : Ty) : F.ty θ (restFn us r) = F.fnN (F.tys θ us) (F.ty θ r) := by
  cases us <;> rfl

theorem ArgsOk.each {Γ : List Ty} : ∀ (as : List Value) (u t : Ty), ArgsOk S Γ as u t → ∀ a ∈ as, ∃ p, ValueOk S Γ a p
  | [], _, _, _, a, ha => absurd ha List.not_mem_nil
  | b :: as, u, t, ⟨p, ps, r, _, hb, h⟩, a, ha => by
    rcases List.mem_cons.1 ha with rfl | ha
    · exact ⟨p, hb⟩
    · exact ArgsOk.each as _ t h a ha

theorem denAll_same {C C' : String → List F.T → F.D} {env : List F.D} : ∀ (as : List Value),
    (∀ a ∈ as, F.den C θ env a = F.den C' θ env a) → F.denAll C θ env as = F.denAll C' θ env as
  | [], _ => rfl
  | a :: as, h => by
    simp only [Frame.denAll]
    rw [h a List.mem_cons_self, denAll_same as fun b hb => h b (List.mem_cons_of_mem _ hb)]

theorem mem_applied {C : String → List F.T → F.D} {Γ : List Ty} {env : List F.D} : ∀ (as : List Value) (u t : Ty) (h : F.D),
    ArgsOk S Γ as u t → (∀ a ∈ as, ∀ p, ValueOk S Γ a p → F.mem (F.den C θ env a) (F.ty θ p)) → F.mem h (F.ty θ u) →
    F.mem (F.appN h (F.denAll C θ env as)) (F.ty θ t)
  | [], u, t, h, ha, _, hu => by
    simp only [ArgsOk] at ha
    subst ha
    exact hu
  | a :: as, u, t, h, ⟨p, ps, r, e, hp, ha⟩, hm, hu => by
    subst e
    rw [ty_rest] at hu
    exact mem_applied as _ t _ ha (fun b hb => hm b (List.mem_cons_of_mem _ hb))
      (F.mem_app _ _ _ _ hu (hm a List.mem_cons_self p hp))

/-- The first arguments of a call have the types of the parameters, and the others those of the rest. -/
theorem args_first {C : String → List F.T → F.D} {Γ : List Ty} {env : List F.D} {r t : Ty} : ∀ (k : Nat) (as : List Value) (us : List Ty),
    ArgsOk S Γ as (restFn us r) t → k ≤ as.length → k ≤ us.length →
    (∀ a ∈ as, ∀ p, ValueOk S Γ a p → F.mem (F.den C θ env a) (F.ty θ p)) →
    F.Fits (F.denAll C θ env (as.take k)) (F.tys θ (us.take k)) ∧ ArgsOk S Γ (as.drop k) (restFn (us.drop k) r) t
  | 0, as, us, h, _, _, _ => ⟨by simp [Frame.denAll, Frame.tys, Frame.Fits], h⟩
  | k + 1, [], us, h, hl, _, _ => by simp at hl
  | k + 1, _, [], h, _, hl, _ => by simp at hl
  | k + 1, a :: as, w :: us, h, h1, h2, hm => by
    obtain ⟨p, ps, q, e, ha, h⟩ := h
    have e : Ty.fn (w :: us) r = .fn (p :: ps) q := e
    injection e with e1 e2
    injection e1 with e3 e4
    subst e2 e3 e4
    obtain ⟨i1, i2⟩ := args_first k as us h (by simpa using h1) (by simpa using h2) fun b hb => hm b (List.mem_cons_of_mem _ hb)
    exact ⟨⟨hm a List.mem_cons_self _ ha, i1⟩, i2⟩

/-- The type of the argument at a position. -/
theorem args_at {Γ : List Ty} {r t p : Ty} {a : Value} : ∀ (k : Nat) (as : List Value) (us : List Ty),
    ArgsOk S Γ as (restFn us r) t → as[k]? = some a → us[k]? = some p → ValueOk S Γ a p
  | _, [], us, h, hl, _ => by simp at hl
  | _, _, [], h, _, hl => by simp at hl
  | k, b :: as, w :: us, h, h1, h2 => by
    obtain ⟨q, ps, q', e, ha, h⟩ := h
    have e : Ty.fn (w :: us) r = .fn (q :: ps) q' := e
    injection e with e1 e2
    injection e1 with e3 e4
    subst e2 e3 e4
    cases k with
    | zero =>
      simp only [List.getElem?_cons_zero, Option.some.injEq] at h1 h2
      subst h1 h2
      exact ha
    | succ k => exact args_at k as us h (by simpa using h1) (by simpa using h2)

theorem denAll_take {C : String → List F.T → F.D} {env : List F.D} : ∀ (k : Nat) (as : List Value),
    F.denAll C θ env (as.take k) = (F.denAll C θ env as).take k
  | 0, _ => rfl
  | k + 1, [] => rfl
  | k + 1, a :: as => by simp [Frame.denAll, denAll_take k as]

theorem denAll_get {C : String → List F.T → F.D} {env : List F.D} : ∀ (as : List Value) (k : Nat),
    (F.denAll C θ env as)[k]? = (as[k]?).map (F.den C θ env)
  | [], _ => rfl
  | a :: as, 0 => rfl
  | a :: as, k + 1 => by simpa [Frame.denAll] using denAll_get as k

theorem denAll_app {C : String → List F.T → F.D} {env : List F.D} : ∀ (as bs : List Value),
    F.denAll C θ env (as ++ bs) = F.denAll C θ env as ++ F.denAll C θ env bs
  | [], _ => rfl
  | a :: as, bs => by simp [Frame.denAll, denAll_app as bs]

theorem den_apply' {C : String → List F.T → F.D} {env : List F.D} (g : Value) (as : List Value) :
    F.den C θ env (g.apply as) = F.appN (F.den C θ env g) (F.denAll C θ env as) := by
  cases as with
  | nil => rfl
  | cons a as => rfl

theorem eachConstAll_mem {P : String → List Ty → Ty → Prop} : ∀ (as : List Value), EachConstAll P as → ∀ a ∈ as, EachConst P a
  | [], _, a, ha => absurd ha List.not_mem_nil
  | b :: as, h, a, ha => by
    rcases List.mem_cons.1 ha with rfl | ha
    · exact h.1
    · exact eachConstAll_mem as h.2 a ha

theorem eachConstAll_append {P : String → List Ty → Ty → Prop} : ∀ (as bs : List Value), EachConstAll P as → EachConstAll P bs →
    EachConstAll P (as ++ bs)
  | [], _, _, h => h
  | _ :: as, bs, h, h' => ⟨h.1, eachConstAll_append as bs h.2 h'⟩

theorem sizeOf_append {α : Type u} [SizeOf α] : ∀ (as bs : List α), sizeOf (as ++ bs) + 1 = sizeOf as + sizeOf bs
  | [], bs => by simp; omega
  | a :: as, bs => by
    have := sizeOf_append as bs
    simp only [List.cons_append, List.cons.sizeOf_spec]
    omega

theorem sizeOf_uncurry (g : Value) (as bs : List Value) : sizeOf (g.apply (as ++ bs)) < sizeOf (Value.app (.app g as) bs) := by
  have h := sizeOf_append as bs
  have : sizeOf (g.apply (as ++ bs)) ≤ 1 + sizeOf g + sizeOf (as ++ bs) := by
    unfold Value.apply
    split
    · omega
    · simp
  simp only [Value.app.sizeOf_spec]
  omega

theorem shape_isVar {f : String} {v : Value} {j : Nat} (h : v.shape f = .var j) : ∃ t, v = .var j t := by
  cases v <;> simp [Value.shape] at h
  exact ⟨_, by rw [h]⟩

theorem shape_isApp {f : String} {v : Value} (hv : ∀ g as, v ≠ .app g as) : ∀ g as, v.shape f ≠ .app g as := by
  intro g as h
  cases v <;> simp [Value.shape] at h
  exact hv _ _ rfl

mutual

/-- The two interpretations give a value the same meaning, of its type. -/
theorem rec_good (N : Near C1 C2 θ S f ts us r A i x) : ∀ (m : Nat) (v : Value), sizeOf v ≤ m → ∀ (Γ : List Ty) (t : Ty) (env : List F.D)
    (map : List (Option Nat)) (s s' : List Bool), ValueOk S Γ v t → EachConst (OwnCall F θ f ts (.fn us r)) v →
    F.Fits env (F.tys θ Γ) → RecMap C1 θ S A i x Γ env map → traverse 0 map s (v.shape f) = some s' → s'[i]? = some true →
    F.den C1 θ env v = F.den C2 θ env v ∧ F.mem (F.den C1 θ env v) (F.ty θ t)
  | 0, v, hz, _, _, _, _, _, _, _, _, _, _, _, _ => by cases v <;> simp at hz
  | m + 1, .var j t', hz, Γ, t, env, map, s, s', hv, _, he, _, _, _ => ⟨rfl, Fits.get he j _ _ (tys_get θ Γ j t hv.2)⟩
  | m + 1, .const n ps t', hz, Γ, t, env, map, s, s', ⟨_, params, g, h1, h2, h3⟩, _, he, _, hs, hi => by
    have hn : n ≠ f := by
      intro e
      simp only [Value.shape, e, if_true, traverse, Option.some.injEq] at hs
      rw [← hs, List.getElem?_replicate] at hi
      split at hi <;> simp at hi
    subst h3
    exact ⟨by simp only [Frame.den]; rw [N.others n hn], N.suits.const n params g ps hn h1 h2⟩
  | m + 1, .app g as, hz, Γ, t, env, map, s, s', hv, hc, he, hm, hs, hi => by
    by_cases hg : ∃ h bs, g = .app h bs
    · obtain ⟨h, bs, e⟩ := hg
      subst e
      obtain ⟨u, ⟨w, hg, hb⟩, ha⟩ := hv
      have hok : ValueOk S Γ (h.apply (bs ++ as)) t := by
        have := argsOk_append bs as w u t hb ha
        unfold Value.apply
        split
        · rename_i e
          rw [List.isEmpty_iff.1 e] at this
          simp only [ArgsOk] at this
          exact this ▸ hg
        · exact ⟨w, hg, this⟩
      have hc' : EachConst (OwnCall F θ f ts (.fn us r)) (h.apply (bs ++ as)) := by
        unfold Value.apply
        split
        · exact hc.1.1
        · exact ⟨hc.1.1, eachConstAll_append bs as hc.1.2 hc.2⟩
      have hs' : traverse 0 map s ((h.apply (bs ++ as)).shape f) = some s' := by
        rw [shape_apply, shapes_append]
        simpa only [Value.shape, traverse] using hs
      have e : ∀ C : String → List F.T → F.D, F.den C θ env (.app (.app h bs) as) = F.den C θ env (h.apply (bs ++ as)) := by
        intro C
        rw [den_apply', denAll_app, appN_append]
        simp only [Frame.den]
      have hlt := sizeOf_uncurry h bs as
      simp only [Value.app.sizeOf_spec] at hlt
      rw [e C1, e C2]
      exact rec_good N m (h.apply (bs ++ as)) (by simp at hz; omega) Γ t env map s s' hok hc' he hm hs' hi
    · obtain ⟨u, hgu, ha⟩ := hv
      simp only [Value.shape] at hs
      rw [traverse_app (shape_isApp fun h bs e => hg ⟨h, bs, e⟩), Option.bind_eq_some_iff] at hs
      obtain ⟨s1, hs1, hs2⟩ := hs
      have hi1 := traverseAll_less hs2 hi
      have hall := rec_all N m as (by simp at hz ⊢; omega) Γ env map s1 s' hc.2 he hm hs2 hi
      have e1 : F.denAll C1 θ env as = F.denAll C2 θ env as := denAll_same as fun a ha' => by
        obtain ⟨p, hp⟩ := ArgsOk.each as u t ha a ha'
        exact (hall a ha' p hp).1
      have hmem : ∀ a ∈ as, ∀ p, ValueOk S Γ a p → F.mem (F.den C1 θ env a) (F.ty θ p) := fun a ha' p hp => (hall a ha' p hp).2
      simp only [Frame.den]
      rw [← e1]
      split at hs1
      · rename_i hname
        have hg' : ∃ ps t', g = .const f ps t' := by
          cases g <;> simp [Value.shape, Val.asName] at hname
          · rename_i n ps t'
            exact ⟨ps, t', by rw [hname]⟩
          · exact hgu.elim
        obtain ⟨ps, t', rfl⟩ := hg'
        obtain ⟨hts, ht'⟩ := hc.1 rfl
        have hu : u = restFn us r := by
          have : us ≠ [] := by rintro rfl; simpa using N.pos
          cases us with
          | nil => exact absurd rfl this
          | cons w us => exact hgu.1.symm.trans ht'
        subst hu
        obtain ⟨_, hspec⟩ := checkArgs_spec s 0 _ s1 hs1
        obtain ⟨_, j, hj, hne, hmap⟩ := hspec i hi1
        rw [Nat.zero_add] at hne hmap
        rw [shapes_get, Option.map_eq_some_iff] at hj
        obtain ⟨a, haj, hsa⟩ := hj
        obtain ⟨ta, rfl⟩ := shape_isVar hsa
        have hva := args_at i as us ha haj N.pos
        obtain ⟨y, ty, hy, hty, hfield⟩ := hm.sub j hmap (Ne.symm hne)
        have : ty = A := Option.some.inj (hty.symm.trans hva.2)
        subst this
        have hlen : i + 1 ≤ as.length := (List.getElem?_eq_some_iff.1 haj).1
        have hlen' : i + 1 ≤ us.length := (List.getElem?_eq_some_iff.1 N.pos).1
        obtain ⟨f1, f2⟩ := args_first (C := C1) (θ := θ) (env := env) (i + 1) as us ha hlen hlen' hmem
        have hyi : (F.denAll C1 θ env (as.take (i + 1)))[i]? = some y := by
          rw [denAll_get, List.getElem?_take_of_lt (Nat.lt_succ_self i), haj]
          simp only [Option.map_some, Frame.den, List.getD_eq_getElem?_getD, hy, Option.getD_some]
        obtain ⟨c1, c2⟩ := N.calls _ f1 y hyi hfield
        simp only [Frame.den]
        rw [hts]
        have hsplit : F.denAll C1 θ env as = F.denAll C1 θ env (as.take (i + 1)) ++ F.denAll C1 θ env (as.drop (i + 1)) := by
          rw [← denAll_app, List.take_append_drop]
        rw [hsplit, appN_append, appN_append, ← c1]
        refine ⟨rfl, mem_applied (as.drop (i + 1)) _ t _ f2 (fun a ha' => hmem a (List.mem_of_mem_drop ha')) ?_⟩
        rw [ty_restFn]
        exact c2
      · obtain ⟨h1, h2⟩ := rec_good N m g (by simp at hz ⊢; omega) Γ u env map s s1 hgu hc.1 he hm hs1 hi1
        rw [← h1]
        exact ⟨rfl, mem_applied as u t _ ha hmem h2⟩
  | m + 1, .tapp _ _ _, hz, _, _, _, _, _, _, hv, _, _, _, _, _ => hv.elim
  | m + 1, .lam ws b, hz, Γ, t, env, map, s, s', ⟨q, e, hb⟩, hc, he, hm, hs, hi => by
    subst e
    simp only [Value.shape, traverse] at hs
    have key : ∀ xs, F.Fits xs (F.tys θ ws) → F.den C1 θ (env ++ xs) b = F.den C2 θ (env ++ xs) b ∧
        F.mem (F.den C1 θ (env ++ xs) b) (F.ty θ q) := fun xs hxs =>
      rec_good N m b (by simp at hz ⊢; omega) (Γ ++ ws) q (env ++ xs) _ s s' hb hc (by rw [tys_append]; exact Fits.append he hxs)
        (hm.extend (by rw [Fits.length hxs, tys_length]) none (fun e => by cases e)) hs hi
    rw [ty_functional]
    simp only [Frame.den]
    exact ⟨lamN_congr fun xs hxs => (key xs hxs).1, mem_lamN fun xs hxs => (key xs hxs).2⟩
  | m + 1, .bin op a b, hz, Γ, t, env, map, s, s', ⟨ht, u, ha, hb, _⟩, hc, he, hm, hs, hi => by
    subst ht
    simp only [Value.shape, traverse, Option.bind_eq_some_iff] at hs
    obtain ⟨s1, hs1, hs2⟩ := hs
    simp only [Frame.den]
    rw [(rec_good N m a (by simp at hz ⊢; omega) Γ u env map s s1 ha hc.1 he hm hs1 (traverse_less hs2 hi)).1,
      (rec_good N m b (by simp at hz ⊢; omega) Γ u env map s1 s' hb hc.2 he hm hs2 hi).1]
    exact ⟨rfl, mem_ofProp _⟩
  | m + 1, .not a, hz, Γ, t, env, map, s, s', ⟨ht, ha⟩, hc, he, hm, hs, hi => by
    subst ht
    simp only [Value.shape, traverse] at hs
    simp only [Frame.den]
    rw [(rec_good N m a (by simp at hz ⊢; omega) Γ .bool env map s s' ha hc he hm hs hi).1]
    exact ⟨rfl, mem_ofProp _⟩
  | m + 1, .try_ _ _, hz, _, _, _, _, _, _, hv, _, _, _, _, _ => hv.elim
  | m + 1, .all ws b, hz, Γ, t, env, map, s, s', ⟨ht, hb⟩, hc, he, hm, hs, hi => by
    subst ht
    simp only [Value.shape, traverse] at hs
    have key : ∀ xs, F.Fits xs (F.tys θ ws) → F.den C1 θ (env ++ xs) b = F.den C2 θ (env ++ xs) b := fun xs hxs =>
      (rec_good N m b (by simp at hz ⊢; omega) (Γ ++ ws) .bool (env ++ xs) _ s s' hb hc (by rw [tys_append]; exact Fits.append he hxs)
        (hm.extend (by rw [Fits.length hxs, tys_length]) none (fun e => by cases e)) hs hi).1
    simp only [Frame.den]
    refine ⟨congrArg F.ofProp (propext (forall_congr' fun xs => ?_)), mem_ofProp _⟩
    constructor
    · exact fun h hx => (key xs hx) ▸ h hx
    · exact fun h hx => (key xs hx).symm ▸ h hx
  | m + 1, .ex ws b, hz, Γ, t, env, map, s, s', ⟨ht, hb⟩, hc, he, hm, hs, hi => by
    subst ht
    simp only [Value.shape, traverse] at hs
    have key : ∀ xs, F.Fits xs (F.tys θ ws) → F.den C1 θ (env ++ xs) b = F.den C2 θ (env ++ xs) b := fun xs hxs =>
      (rec_good N m b (by simp at hz ⊢; omega) (Γ ++ ws) .bool (env ++ xs) _ s s' hb hc (by rw [tys_append]; exact Fits.append he hxs)
        (hm.extend (by rw [Fits.length hxs, tys_length]) none (fun e => by cases e)) hs hi).1
    simp only [Frame.den]
    refine ⟨congrArg F.ofProp (propext (exists_congr fun xs => ?_)), mem_ofProp _⟩
    constructor
    · exact fun h => ⟨h.1, (key xs h.1) ▸ h.2⟩
    · exact fun h => ⟨h.1, (key xs h.1).symm ▸ h.2⟩
  | m + 1, .group a, hz, Γ, t, env, map, s, s', hv, hc, he, hm, hs, hi => by
    simp only [Value.shape, traverse] at hs
    exact rec_good N m a (by simp at hz ⊢; omega) Γ t env map s s' hv hc he hm hs hi
  | m + 1, .bool b, hz, Γ, t, env, map, s, s', hv, _, _, _, _, _ => by
    simp only [ValueOk] at hv
    subst hv
    exact ⟨rfl, mem_ofProp _⟩
  | m + 1, .ite c a b, hz, Γ, t, env, map, s, s', ⟨_, hvc, hva, hvb⟩, hc, he, hm, hs, hi => by
    simp only [Value.shape, traverse, Option.bind_eq_some_iff] at hs
    obtain ⟨s1, hs1, s2, hs2, hs3⟩ := hs
    have hi2 := traverse_less hs3 hi
    obtain ⟨c1, _⟩ := rec_good N m c (by simp at hz ⊢; omega) Γ .bool env map s s1 hvc hc.1 he hm hs1 (traverse_less hs2 hi2)
    obtain ⟨a1, a2⟩ := rec_good N m a (by simp at hz ⊢; omega) Γ t env map s1 s2 hva hc.2.1 he hm hs2 hi2
    obtain ⟨b1, b2⟩ := rec_good N m b (by simp at hz ⊢; omega) Γ t env map s2 s' hvb hc.2.2 he hm hs3 hi
    simp only [Frame.den]
    rw [c1]
    split
    · exact ⟨a1, a2⟩
    · exact ⟨b1, b2⟩
  | m + 1, .match_ sc cs, hz, Γ, t, env, map, s, s', ⟨_, _, d, as, ks, hsc, hk, hidx, hcs⟩, hc, he, hm, hs, hi => by
    simp only [Value.shape, traverse, Option.bind_eq_some_iff] at hs
    obtain ⟨s1, hs1, hs2⟩ := hs
    obtain ⟨d1, d2⟩ := rec_good N m sc (by simp at hz ⊢; omega) Γ _ env map s s1 hsc hc.1 he hm hs1 (traverseCases_less hs2 hi)
    obtain ⟨k, hkm, xs, hxs, e⟩ := SuitsApart.covers N.suits d as ks hk _ d2
    obtain ⟨l, hlt, hget⟩ := List.getElem_of_mem hkm
    obtain ⟨c, hcm, hci⟩ := hidx l hlt
    have := rec_cases N m cs (by simp at hz ⊢; omega) Γ ks t env map s1 _ s' (F.den C1 θ env sc) hcs hc.2 he hm hs2 hi (N.suits.constructors d as ks hk) (by
      intro hv
      have hv : (sc.shape f) = .var i := by
        cases hsh : sc.shape f <;> simp [hsh, Val.asVar] at hv
        rw [hv]
      obtain ⟨t', rfl⟩ := shape_isVar hv
      have hA : A = .data d as := by
        have := hm.here.2.symm.trans hsc.2
        exact Option.some.inj this
      refine ⟨d, as, hA, hk, ?_⟩
      simp only [Frame.den, List.getD_eq_getElem?_getD, hm.here.1, Option.getD_some])
    simp only [Frame.den]
    rw [← d1]
    exact ⟨this.1, this.2 ⟨c, hcm, k, by rw [hci, List.getElem?_eq_getElem hlt, hget], xs, hxs, e⟩⟩

theorem rec_all (N : Near C1 C2 θ S f ts us r A i x) : ∀ (m : Nat) (as : List Value), sizeOf as ≤ m → ∀ (Γ : List Ty) (env : List F.D)
    (map : List (Option Nat)) (s s' : List Bool), EachConstAll (OwnCall F θ f ts (.fn us r)) as →
    F.Fits env (F.tys θ Γ) → RecMap C1 θ S A i x Γ env map → traverseAll 0 map s (Value.shapes f as) = some s' → s'[i]? = some true →
    ∀ a ∈ as, ∀ t, ValueOk S Γ a t → F.den C1 θ env a = F.den C2 θ env a ∧ F.mem (F.den C1 θ env a) (F.ty θ t)
  | _, [], _, _, _, _, _, _, _, _, _, _, _, a, ha, _, _ => absurd ha List.not_mem_nil
  | 0, b :: as, hz, _, _, _, _, _, _, _, _, _, _, _, _, _, _ => by simp at hz
  | m + 1, b :: as, hz, Γ, env, map, s, s', hc, he, hm, hs, hi, a, ha, t, hv => by
    simp only [Value.shapes, traverseAll, Option.bind_eq_some_iff] at hs
    obtain ⟨s1, hs1, hs2⟩ := hs
    by_cases hab : a = b
    · subst hab
      exact rec_good N m a (by simp at hz ⊢; omega) Γ t env map s s1 hv hc.1 he hm hs1 (traverseAll_less hs2 hi)
    · exact rec_all N m as (by simp at hz ⊢; omega) Γ env map s1 s' hc.2 he hm hs2 hi a ((List.mem_cons.1 ha).resolve_left hab) t hv

theorem rec_cases (N : Near C1 C2 θ S f ts us r A i x) : ∀ (m : Nat) (cs : List Case), sizeOf cs ≤ m → ∀ (Γ : List Ty) (ks : List (String × List Ty × List Ty))
    (t : Ty) (env : List F.D) (map : List (Option Nat)) (s : List Bool) (sup : Option Nat) (s' : List Bool) (d : F.D),
    CasesOk S Γ cs ks t → EachConstCases (OwnCall F θ f ts (.fn us r)) cs → F.Fits env (F.tys θ Γ) → RecMap C1 θ S A i x Γ env map →
    traverseCases 0 map s sup (Value.shapeCases f cs) = some s' → s'[i]? = some true → (∀ k ∈ ks, k.1 ≠ f) →
    (sup = some i → ∃ dn as, A = .data dn as ∧ S.constructors dn as ks ∧ d = x) →
    F.denCases C1 θ env d cs = F.denCases C2 θ env d cs ∧
    ((∃ c ∈ cs, ∃ k, ks[Value.caseIndex c]? = some k ∧
      ∃ xs, F.Fits xs (F.tys θ k.2.2) ∧ F.appN (C1 k.1 (F.tys θ k.2.1)) xs = d) → F.mem (F.denCases C1 θ env d cs) (F.ty θ t))
  | _, [], _, _, _, _, _, _, _, _, _, _, _, _, _, _, _, _, _, _ => ⟨rfl, fun ⟨c, hc, _⟩ => absurd hc List.not_mem_nil⟩
  | 0, .mk ws p b l n :: cs, hz, _, _, _, _, _, _, _, _, _, _, _, _, _, _, _, _, _ => by simp at hz
  | m + 1, .mk ws p b l n :: cs, hz, Γ, ks, t, env, map, s, sup, s', d, ⟨⟨_, k, ps, ct, hk, hp⟩, hv, hcs⟩, hc, he, hm, hs, hi, hne, hsup => by
    simp only [Value.shapeCases, traverseCases, Option.bind_eq_some_iff] at hs
    obtain ⟨s1, hs1, s2, hs2, hs3⟩ := hs
    have hi2 := traverseCases_less hs3 hi
    have hkm : (k, ps, ws) ∈ ks := List.mem_of_getElem? hk
    have p1 := case_pattern (C := C1) he (θ := θ) hp
    have p2 := case_pattern (C := C2) he (θ := θ) hp
    rw [← N.others k (hne _ hkm)] at p2
    obtain ⟨r1, r2⟩ := rec_cases N m cs (by simp at hz ⊢; omega) Γ ks t env map s2 sup s' d hcs hc.2.2 he hm hs3 hi hne hsup
    have key : ∀ xs, F.Fits xs (F.tys θ ws) ∧ F.den C1 θ (env ++ xs) p = d →
        F.den C1 θ (env ++ xs) b = F.den C2 θ (env ++ xs) b ∧ F.mem (F.den C1 θ (env ++ xs) b) (F.ty θ t) := by
      rintro xs ⟨hxs, hd⟩
      rw [p1 xs hxs] at hd
      refine rec_good N m b (by simp at hz ⊢; omega) (Γ ++ ws) t (env ++ xs) _ s1 s2 hv hc.2.1 (by rw [tys_append]; exact Fits.append he hxs)
        (hm.extend (by rw [Fits.length hxs, tys_length]) sup ?_) hs2 hi2
      intro e j y w hy hw
      obtain ⟨dn, as, h1, h2, h3⟩ := hsup e
      exact ⟨dn, as, ks, h1, h2, (k, ps, ws), hkm, xs, hxs, hd.trans h3, j, hw, hy⟩
    simp only [Frame.denCases]
    refine ⟨pick_same (fun xs => ?_) (fun xs hx => (key xs hx).1) (fun _ => r1), fun hx => ?_⟩
    · constructor
      · exact fun h => ⟨h.1, by rw [p2 xs h.1, ← p1 xs h.1]; exact h.2⟩
      · exact fun h => ⟨h.1, by rw [p1 xs h.1, ← p2 xs h.1]; exact h.2⟩
    · unfold Frame.pick
      split
      · rename_i h
        exact (key _ (Classical.choose_spec h)).2
      · rename_i h
        refine r2 ?_
        obtain ⟨c, hcm, k', hk', xs, hxs, e⟩ := hx
        rcases List.mem_cons.1 hcm with rfl | hcm
        · simp only [Value.caseIndex] at hk'
          rw [hk] at hk'
          injection hk' with hk'
          subst hk'
          exact (h ⟨xs, hxs, by rw [p1 xs hxs]; exact e⟩).elim
        · exact ⟨c, hcm, k', hk', xs, hxs, e⟩

end

end Elab
end Acorn
