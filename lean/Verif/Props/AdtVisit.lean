import Verif.Lemmas.Adt.ValueDict

/-!
# Visitors of ADT values (C66)
-/

namespace HW

open Adt

variable {W : World}

/-- The visits are of the values of `value_dict` that are not `None`. -/
theorem Adt.visit_valueDict (b : Bool) : ∀ (ks : List Key) (vs : List Val) (n : Nat), ks.length = n → n ≤ vs.length →
    Val.visits W b n vs =
      (((ks.zip vs).filter fun p => !p.2.isNone).mapM fun p => Val.visit W b p.2).map List.flatten
  | [], _, 0, _, _ => by rw [Val.visits] <;> first | rfl | simp
  | k :: ks, [], n + 1, _, h => by simp at h
  | k :: ks, v :: vs, n + 1, h1, h2 => by
      simp only [List.length_cons, Nat.add_right_cancel_iff, Nat.add_le_add_iff_right] at h1 h2
      have ih := visit_valueDict b ks vs n h1 h2
      rw [Val.visits, List.zip_cons_cons, List.filter_cons]
      cases hv : v.isNone
      · simp only [Bool.false_eq_true, if_false, Bool.not_false, if_true, List.mapM_cons]
        cases Val.visit W b v with
        | error e => rfl
        | ok a =>
            simp only [pyBindOk]
            rw [ih]
            cases ((ks.zip vs).filter fun p => !p.2.isNone).mapM fun p => Val.visit W b p.2 <;> rfl
      · simp only [if_true, Bool.not_true, Bool.false_eq_true, if_false, pyBindOk]
        rw [ih]
        cases ((ks.zip vs).filter fun p => !p.2.isNone).mapM fun p => Val.visit W b p.2 <;> rfl

theorem Adt.visit_parts {v : Val} : v.WT W → (∀ w : Val, w.In v → w.isNone = false) → v.Apart W →
    (∀ T w, (Val.sum T w).In v → ∀ k fs, T.view = some (k, fs) → fs.Nodup) →
    (∀ T i w, (Val.tag T i w).In v → ∀ k fs, T.view = some (k, fs) → k.names.length = fs.length) →
    Val.visit W true v = .ok (v.parts.map Val.ev) := by
  induction v using Val.induct with
  | leaf T p => intros; rfl
  | enum e i => intros; rfl
  | tup T a vs ih =>
      intro hw hn ha hs ht
      obtain ⟨k, fs, e1, e2, e3, e4, -⟩ := hw _ .self
      have hvs : ∀ ws : List Val, (∀ w ∈ ws, w ∈ vs) →
          Val.visits W true ws.length ws = .ok ((Val.partsL ws).map Val.ev) := by
        intro ws
        induction ws with
        | nil => intro _; simp [Val.visits, Val.partsL]
        | cons w ws ih' =>
            intro h
            have hm := h w (by simp)
            rw [List.length_cons, Val.visits, hn w (.tup hm .self), Val.partsL]
            simp only [Bool.false_eq_true, if_false]
            rw [ih w hm (hw.tup hm) (fun u hu => hn u (.tup hm hu)) (fun T' w' h' => ha T' w' (.tup hm h'))
              (fun T' w' h' => hs T' w' (.tup hm h')) (fun T' i' w' h' => ht T' i' w' (.tup hm h')), pyBindOk,
              ih' fun u hu => h u (by simp [hu]), pyBindOk, List.map_append]
            rfl
      rw [Val.visit, e1]
      dsimp only
      rw [if_neg (by omega), ← e4, hvs vs fun _ h => h, pyBindOk, Val.parts, List.map_cons]
      congr 2
      rw [Val.ev]
      by_cases hp : k.shape = .product
      · rw [if_pos ⟨k, fs, e1, hp⟩, hp]; rfl
      · rw [if_neg (by rintro ⟨k', fs', h1, h2⟩; rw [e1] at h1; cases h1; exact hp h2)]
        cases hsh : k.shape <;> first | rfl | contradiction
  | sum T v ih =>
      intro hw hn ha hs ht
      obtain ⟨k, fs, e1, e2, t, e3, e4⟩ := hw _ .self
      have hv := hn v (.sum .self)
      have hf : (fs.filter fun t => v.isinst W t && !v.isNone) = [t] := by
        have hfn : (fs.filter fun t => v.isinst W t && !v.isNone).Nodup := (hs T v .self k fs e1).filter _
        have hall : ∀ u ∈ fs.filter fun t => v.isinst W t && !v.isNone, u = t := by
          intro u hu
          rw [List.mem_filter, Bool.and_eq_true] at hu
          exact ha T v .self k fs e1 u hu.1 t e3 hu.2.1 e4
        have hm : t ∈ fs.filter fun t => v.isinst W t && !v.isNone := by
          rw [List.mem_filter, Bool.and_eq_true, hv]
          exact ⟨e3, e4, rfl⟩
        cases hl : fs.filter fun t => v.isinst W t && !v.isNone with
        | nil => rw [hl] at hm; cases hm
        | cons u us =>
            rw [hl] at hfn hall
            cases hall u (by simp)
            cases us with
            | nil => rfl
            | cons u' us => cases hall u' (by simp); simp at hfn
      rw [Val.visit, e1]
      dsimp only
      rw [hf, List.mapM_cons, ih hw.sum (fun u hu => hn u (.sum hu)) (fun T' w' h' => ha T' w' (.sum h'))
              (fun T' w' h' => hs T' w' (.sum h')) (fun T' i' w' h' => ht T' i' w' (.sum h')), e2, Val.parts]
      simp [bind, Except.bind, pure, Except.pure, Val.ev, Shape.iev]
  | tag T i v ih =>
      intro hw hn ha hs ht
      obtain ⟨k, fs, t, e1, e2, e3, e4⟩ := hw _ .self
      have hlt : i < k.names.length := by
        rw [ht T i v .self k fs e1]
        exact (List.getElem?_eq_some_iff.1 e3).1
      rw [Val.visit, e1]
      dsimp only
      rw [if_pos ⟨hlt, hn v (.tag .self)⟩, ih hw.tag (fun u hu => hn u (.tag hu)) (fun T' w' h' => ha T' w' (.tag h'))
              (fun T' w' h' => hs T' w' (.tag h')) (fun T' i' w' h' => ht T' i' w' (.tag h')), e2, Val.parts]
      simp [bind, Except.bind, pure, Except.pure, Val.ev, Shape.iev]

/-- With a handler for leaves: every component of a well-typed value, once, from the outside in, left to right, each
in the handler of its kind.  Not covered: components that are `None` (`C66_none_negation`) and sums whose value is an
instance of two alternatives (`C66_twice_negation`). -/
theorem C66_instance_partial {v : Val} (hw : v.WT W) (hb : ∀ w : Val, w.In v → Built W w.cls)
    (hn : ∀ w : Val, w.In v → w.isNone = false) (ha : v.Apart W) : Val.visit W true v = .ok (v.parts.map Val.ev) := by
  refine visit_parts hw hn ha (fun T w h k fs hv => ?_) (fun T i w h k fs hv => ?_)
  · obtain ⟨k', fs', e1, e2, -⟩ := hw _ h
    rw [hv] at e1
    cases e1
    exact view_sum_nodup (hb _ h) hv e2
  · obtain ⟨k', fs', t, e1, e2, -⟩ := hw _ h
    rw [hv] at e1
    cases e1
    have := view_fits (hb _ h) hv
    unfold Fits at this
    rw [e2] at this
    exact this.1

/-- A component that is `None` is not visited: `Tuple[type(None)](None)`. -/
theorem C66_none_negation (b : Base) : ∃ x : Val, x.WT W ∧ noneV.In x ∧
    Val.visit W true x = .ok [.visitTuple x] := by
  refine ⟨.tup (mkTuple b [noneTy]) false [noneV], ?_, .tup (List.mem_singleton.2 rfl) .self, ?_⟩
  · intro w hw
    cases hw with
    | self =>
        refine ⟨_, _, rfl, by simp, by simp, rfl, ?_⟩
        intro i v t a c
        cases i with
        | zero => simp at a c; subst a c; exact W.sub_refl _
        | succ i => simp at a
    | tup hm hw =>
        simp only [List.mem_singleton] at hm
        subst hm
        unfold noneV at hw
        cases hw
        rfl
  · simp [Val.visit, mkTuple, Ty.view, Val.visits, noneV, Val.isNone, Shape.iev, pure, Except.pure]

/-- `Sum[A, B]` with `B` deriving from `A`, holding a `B`: its value is visited twice. -/
theorem C66_twice_negation {a b : Nat} (hne : a ≠ b) (hb : b ≠ 99) (base : Base)
    (hs : W.sub (.leaf (.cls b)) (.leaf (.cls a)) = true) :
    ∃ x y : Val, constructV W (mkSum W base [.leaf (.cls a), .leaf (.cls b)]) [y] [] = .ok x ∧ x.WT W ∧
      Val.visit W true x = .ok [.visitSum x, .visitLeaf y, .visitLeaf y] := by
  have hp : (W.canon [.leaf (.cls a), .leaf (.cls b)]).Perm [.leaf (.cls a), .leaf (.cls b)] := by
    rw [List.perm_ext_iff_of_nodup (W.nodup_canon _) (by simpa using hne)]
    exact W.mem_canon _
  have hm : Ty.leaf (.cls b) ∈ W.canon [.leaf (.cls a), .leaf (.cls b)] := (W.mem_canon _ _).2 (by simp)
  refine ⟨.sum (mkSum W base [.leaf (.cls a), .leaf (.cls b)]) (.leaf (.leaf (.cls b)) 0), .leaf (.leaf (.cls b)) 0,
    ?_, ?_, ?_⟩
  · simp only [constructV, mkSum, Ty.view, callSum, Val.cls, hm, if_true]
    rfl
  · intro w hw
    cases hw with
    | self => exact ⟨_, _, rfl, rfl, _, hm, W.sub_refl _⟩
    | sum hw => cases hw; rfl
  · have hf : (W.canon [.leaf (.cls a), .leaf (.cls b)]).filter (fun t =>
        (Val.leaf (.leaf (.cls b)) 0).isinst W t && !(Val.leaf (.leaf (.cls b)) 0).isNone) =
        W.canon [.leaf (.cls a), .leaf (.cls b)] := by
      rw [List.filter_eq_self]
      intro t ht
      have := (W.mem_canon _ _).1 ht
      simp only [List.mem_cons, List.not_mem_nil, or_false] at this
      rcases this with rfl | rfl <;> simp [Val.isinst, Val.cls, hs, W.sub_refl, Val.isNone, noneTy, hb]
    rw [Val.visit]
    simp only [mkSum, Ty.view]
    rw [hf]
    obtain ⟨t1, t2, ht⟩ := List.length_eq_two.1 hp.length_eq
    rw [ht]
    simp [Val.visit, Shape.iev, bind, Except.bind, pure, Except.pure]

/-- Without a method `visit_leaf` (the base class has `visit_Leaf`) any leaf is an `AttributeError`. -/
theorem C66_instance_no_handler_negation (T : Ty) (p : Nat) : Val.visit W false (.leaf T p) = .error .attributeError := by
  simp [Val.visit]

/-- A product holding a tagged union. -/
example {b : Base} {e : EnumT} (hn : e.members.length = 2) :
    ∃ x : Val, x.WT World.std ∧ x.parts.length = 3 ∧ (∀ w : Val, w.In x → Built World.std w.cls) ∧
      (∀ w : Val, w.In x → w.isNone = false) ∧ x.Apart World.std := by
  have hc : World.std.canonF ⟨.tagged, b, 1, 0, [8]⟩ ([8].zip [.enum e]) = [(8, .enum e)] :=
    List.perm_singleton.1 (World.std.perm_canonF _ _)
  have hU : mkTagged World.std b 1 0 [8] [.enum e] = .node ⟨.tagged, b, 1, 0, [8]⟩ [.enum e] := by
    unfold mkTagged
    rw [hc]
    rfl
  refine ⟨.tup (mkProduct b 2 0 [5] [mkTagged World.std b 1 0 [8] [.enum e]]) false
    [.tag (mkTagged World.std b 1 0 [8] [.enum e]) 0 (.enum e 1)], ?_, rfl, ?_, ?_, ?_⟩
  · intro w hw
    cases hw with
    | self =>
        refine ⟨_, _, rfl, by simp, by simp, rfl, ?_⟩
        intro i v t a c
        cases i with
        | zero => simp at a c; subst a c; exact World.std.sub_refl _
        | succ i => simp at a
    | tup hm hw =>
        simp only [List.mem_singleton] at hm
        subst hm
        cases hw with
        | self => rw [hU]; exact ⟨_, _, _, rfl, rfl, rfl, World.std.sub_refl _⟩
        | tag hw => cases hw; show 1 < e.members.length; omega
  · have hB : Built World.std (mkTagged World.std b 1 0 [8] [.enum e]) :=
      .tagged _ _ _ _ _ rfl (by simp) (by simpa using Built.enum e)
    intro w hw
    cases hw with
    | self => exact .product _ _ _ _ _ rfl (by simp) (by simpa using hB)
    | tup hm hw =>
        simp only [List.mem_singleton] at hm
        subst hm
        cases hw with
        | self => exact hB
        | tag hw => cases hw; exact .enum e
  · intro w hw
    cases hw with
    | self => rfl
    | tup hm hw =>
        simp only [List.mem_singleton] at hm
        subst hm
        cases hw with
        | self => rfl
        | tag hw => cases hw; rfl
  · intro T w hw
    cases hw with
    | tup hm hw =>
        simp only [List.mem_singleton] at hm
        subst hm
        cases hw with
        | tag hw => cases hw

end HW
