import Verif.Model.Records
import Verif.Lemmas.CircuitFamilies

/-! Objects of classes declared with two families. -/

namespace HW.Circuit.Records
open HW HW.Circuit
open HW.Adt (Ty Leaf Ref Store Name EnumT World Con)

def plainLeaf : Leaf → Prop
  | .vec k _ => k < 4
  | .cls c => c = 0 ∨ 3 ≤ c

mutual
/-- A class declared with the concrete family. -/
def Plain : Ty → Prop
  | .leaf l => plainLeaf l
  | .enum _ => True
  | .node _ fs => Plains fs
  | .mod _ t => Plain t
def Plains : List Ty → Prop
  | [] => True
  | t :: ts => Plain t ∧ Plains ts
end

theorem plains_iff : ∀ {fs : List Ty}, Plains fs ↔ ∀ t ∈ fs, Plain t
  | [] => by simp [Plains]
  | t :: ts => by simp [Plains, plains_iff (fs := ts)]

theorem moves_eq (f : Nat) : ∀ fs : List Ty, moves f fs = fs.map (move f)
  | [] => rfl
  | t :: ts => by simp [moves, moves_eq f ts]

theorem moveLeaf_inj {f : Nat} (hf : f ≤ 2) {a b : Leaf} (ha : plainLeaf a) (hb : plainLeaf b)
    (h : moveLeaf f a = moveLeaf f b) : a = b := by
  cases a with
  | vec k s =>
    cases b with
    | vec k' s' => simp only [moveLeaf, Leaf.vec.injEq] at h ⊢; exact ⟨by omega, h.2⟩
    | cls c => cases c <;> simp [moveLeaf] at h
  | cls c =>
    cases b with
    | vec k' s' => cases c <;> simp [moveLeaf] at h
    | cls c' =>
      simp only [plainLeaf] at ha hb
      cases c <;> cases c' <;> simp [moveLeaf] at h ⊢ <;> omega

mutual
theorem move_inj {f : Nat} (hf : f ≤ 2) : ∀ {a b : Ty}, Plain a → Plain b → move f a = move f b → a = b
  | .leaf l, b, ha, hb, h => by
      cases b <;> simp only [move, Ty.leaf.injEq, reduceCtorEq] at h
      rw [moveLeaf_inj hf ha hb h]
  | .enum e, b, ha, hb, h => by
      cases b <;> simp only [move, Ty.enum.injEq, reduceCtorEq] at h
      rw [h]
  | .node k fs, b, ha, hb, h => by
      cases b <;> simp only [move, Ty.node.injEq, reduceCtorEq] at h
      rw [h.1, moves_inj hf (by simpa [Plain] using ha) (by simpa [Plain] using hb) h.2]
  | .mod m t, b, ha, hb, h => by
      cases b <;> simp only [move, Ty.mod.injEq, reduceCtorEq] at h
      rw [h.1, move_inj hf (by simpa [Plain] using ha) (by simpa [Plain] using hb) h.2]
theorem moves_inj {f : Nat} (hf : f ≤ 2) : ∀ {a b : List Ty}, Plains a → Plains b → moves f a = moves f b → a = b
  | [], b, ha, hb, h => by cases b <;> simp [moves] at h ⊢
  | t :: ts, b, ha, hb, h => by
      cases b with
      | nil => simp [moves] at h
      | cons u us =>
        simp only [moves, List.cons.injEq] at h
        simp only [Plains] at ha hb
        rw [move_inj hf ha.1 hb.1 h.1, moves_inj hf ha.2 hb.2 h.2]
end

theorem mem_moves {f : Nat} (hf : f ≤ 2) {T : Ty} {fs : List Ty} (hT : Plain T) (hfs : ∀ t ∈ fs, Plain t) :
    move f T ∈ fs.map (move f) ↔ T ∈ fs := by
  constructor
  · intro h
    obtain ⟨t, ht, he⟩ := List.mem_map.1 h
    exact move_inj hf (hfs t ht) hT he ▸ ht
  · exact List.mem_map_of_mem

theorem view_move (f : Nat) : ∀ T : Ty, (move f T).view = T.view.map fun p => (p.1, p.2.map (move f))
  | .leaf l => rfl
  | .enum e => rfl
  | .node k fs => by simp [move, Ty.view, moves_eq]
  | .mod m t => by
      simp only [move, Ty.view, view_move f t]
      cases t.view <;> rfl

theorem view_plain : ∀ {T : Ty} {k : Con} {fs : List Ty}, T.view = some (k, fs) → Plain T → ∀ t ∈ fs, Plain t
  | .leaf l, _, _, h, _ => by simp [Ty.view] at h
  | .enum e, _, _, h, _ => by simp [Ty.view] at h
  | .node k fs, _, _, h, hp => by
      simp only [Ty.view, Option.some.injEq, Prod.mk.injEq] at h
      obtain ⟨-, rfl⟩ := h
      exact plains_iff.1 (by simpa [Plain] using hp)
  | .mod m t, _, _, h, hp => by
      simp only [Ty.view, Option.map_eq_some_iff, Prod.mk.injEq] at h
      obtain ⟨⟨k', fs'⟩, h1, -, h2⟩ := h
      dsimp only at h2
      subst h2
      exact view_plain h1 (by simpa [Plain] using hp)

/-- The object with its class declared with family `f`. -/
def moveObj (f : Nat) : Adt.Obj → Adt.Obj
  | .leaf T p => .leaf (move f T) p
  | .enum e i => .enum e i
  | .tup T a vs => .tup (move f T) a vs
  | .sum T v => .sum (move f T) v
  | .tag T i v => .tag (move f T) i v

theorem moveObj_cls (f : Nat) (o : Adt.Obj) : (moveObj f o).cls = move f o.cls := by
  cases o <;> rfl

def PlainStore (h : Store) : Prop := ∀ o ∈ h, Plain o.cls

/-- Declared with either family, the classes are subclasses of one another alike. -/
def Alike (W : World) (f : Nat) : Prop := ∀ a b, Plain a → Plain b → W.sub (move f a) (move f b) = W.sub a b

section
variable {W : World} {f : Nat} (hf : f ≤ 2) (hW : Alike W f) {h : Store} (hh : PlainStore h)
include hh

theorem plain_at {r : Ref} {o : Adt.Obj} (ho : h[r]? = some o) : Plain o.cls := hh o (List.mem_of_getElem? ho)

include hW in
theorem isinst_move (r : Ref) {T : Ty} (hT : Plain T) :
    Store.isinst W (h.map (moveObj f)) r (move f T) = Store.isinst W h r T := by
  simp only [Store.isinst, List.getElem?_map]
  cases ho : h[r]? with
  | none => rfl
  | some o => simp only [Option.map_some, moveObj_cls]; exact hW _ _ (plain_at hh ho) hT

omit hh in
theorem checkFields_move {α : Type} {inst inst' : α → Ty → Bool} {fs : List Ty}
    (hi : ∀ v, ∀ t ∈ fs, inst' v (move f t) = inst v t) : ∀ vs : List α,
    Adt.checkFields inst' vs (fs.map (move f)) = Adt.checkFields inst vs fs := by
  induction fs with
  | nil => intro vs; cases vs <;> rfl
  | cons t ts ih =>
    intro vs
    cases vs with
    | nil => rfl
    | cons v vs =>
      simp only [List.map_cons, Adt.checkFields, hi v t List.mem_cons_self,
        ih (fun v t ht => hi v t (List.mem_cons_of_mem _ ht))]

omit hh in
theorem initTuple_move {α : Type} {inst inst' : α → Ty → Bool} {fs : List Ty}
    (hi : ∀ v, ∀ t ∈ fs, inst' v (move f t) = inst v t) (vs : List α) :
    Adt.initTuple inst' (fs.map (move f)) vs = Adt.initTuple inst fs vs := by
  simp only [Adt.initTuple, List.length_map, checkFields_move hi]

omit hh in
theorem callTuple_move {α : Type} {inst inst' : α → Ty → Bool} {fs : List Ty} (k : Con)
    (hi : ∀ v, ∀ t ∈ fs, inst' v (move f t) = inst v t) (pos : List α) (kw : List (Name × α)) :
    Adt.callTuple inst' k (fs.map (move f)) pos kw = Adt.callTuple inst k fs pos kw := by
  have he : Adt.initTuple inst' (fs.map (move f)) = Adt.initTuple inst fs := funext (initTuple_move hi)
  simp only [Adt.callTuple, he]

omit hh in
theorem callTagged_move {α : Type} {inst inst' : α → Ty → Bool} {fs : List Ty} (k : Con)
    (hi : ∀ v, ∀ t ∈ fs, inst' v (move f t) = inst v t) (pos : List α) (kw : List (Name × α)) :
    Adt.callTagged inst' k (fs.map (move f)) pos kw = Adt.callTagged inst k fs pos kw := by
  unfold Adt.callTagged
  split
  · rfl
  · split
    · rename_i n v
      split
      · rw [List.getElem?_map]
        cases ht : fs[k.names.idxOf n]? with
        | none => rfl
        | some t => simp only [Option.map_some, hi v t (List.mem_of_getElem? ht)]
      · rfl
    · rfl

include hf hW in
theorem construct_move {T : Ty} (hT : Plain T) (pos : List Ref) (kw : List (Name × Ref)) :
    Adt.construct W (h.map (moveObj f)) (move f T) pos kw = (Adt.construct W h T pos kw).map (moveObj f) := by
  unfold Adt.construct
  rw [view_move]
  cases hv : T.view with
  | none => rfl
  | some p =>
    obtain ⟨k, fs⟩ := p
    have hp := view_plain hv hT
    have hi : ∀ r, ∀ t ∈ fs, Store.isinst W (h.map (moveObj f)) r (move f t) = Store.isinst W h r t :=
      fun r t ht => isinst_move hW hh r (hp t ht)
    simp only [Option.map_some]
    split
    · have : Adt.callSum (fun r => (h.map (moveObj f))[r]?.map Adt.Obj.cls) (fs.map (move f)) pos kw =
          Adt.callSum (fun r => h[r]?.map Adt.Obj.cls) fs pos kw := by
        unfold Adt.callSum
        split
        · rename_i v
          simp only [List.getElem?_map]
          cases ho : h[v]? with
          | none => rfl
          | some o =>
            simp only [Option.map_some, moveObj_cls, mem_moves hf (plain_at hh ho) hp]
        · rfl
      rw [this]
      cases Adt.callSum (fun r => h[r]?.map Adt.Obj.cls) fs pos kw <;> rfl
    · rw [callTagged_move k hi]
      cases Adt.callTagged (h.isinst W) k fs pos kw <;> rfl
    · rw [callTuple_move k hi]
      cases Adt.callTuple (h.isinst W) k fs pos kw <;> rfl

omit hh in
theorem construct_plain {T : Ty} (hT : Plain T) {pos : List Ref} {kw : List (Name × Ref)} {o : Adt.Obj}
    (ho : Adt.construct W h T pos kw = .ok o) : Plain o.cls := by
  unfold Adt.construct at ho
  split at ho
  · cases ho
  · split at ho
    · obtain ⟨v, -, e⟩ := bind_ok ho; cases e; exact hT
    · obtain ⟨v, -, e⟩ := bind_ok ho; cases e; exact hT
    · obtain ⟨v, -, e⟩ := bind_ok ho; cases e; exact hT

omit hh in
theorem pySliceList_map {α β : Type} (g : α → β) (l : List α) (s : PySlice) :
    pySliceList (l.map g) s = (pySliceList l s).map (List.map g) := by
  unfold pySliceList
  rw [List.length_map]
  cases s.indices l.length with
  | error e => rfl
  | ok r =>
    obtain ⟨a, b, c⟩ := r
    simp only [bind, Except.bind, pure, Except.pure, Except.map, List.getElem?_map]
    congr 1
    rw [List.map_filterMap]

omit hh in
theorem pySliceList_mem {α : Type} {l r : List α} {s : PySlice} (hr : pySliceList l s = .ok r) : ∀ a ∈ r, a ∈ l := by
  unfold pySliceList at hr
  obtain ⟨⟨a, b, c⟩, -, e⟩ := bind_ok hr
  cases e
  intro x hx
  obtain ⟨i, -, hi⟩ := List.mem_filterMap.1 hx
  exact List.mem_of_getElem? hi

omit hh in
theorem iterObj_move (f : Nat) (o : Adt.Obj) : Adt.iterObj (moveObj f o) = Adt.iterObj o := by cases o <;> rfl

include hW in
theorem setItemValue_move (k : Con) {fs : List Ty} (hp : ∀ t ∈ fs, Plain t) (vs : List Ref) (idx : Adt.Idx) (v : Ref) :
    Adt.setItemValue W (h.map (moveObj f)) k (fs.map (move f)) vs idx v = Adt.setItemValue W h k fs vs idx v := by
  cases idx with
  | int i =>
    simp only [Adt.setItemValue, List.length_map, List.getElem?_map]
    cases Adt.pyIndex fs.length i with
    | none => rfl
    | some j =>
      dsimp only
      cases ht : fs[j]? with
      | none => rfl
      | some t => simp only [Option.map_some, isinst_move hW hh v (hp t (List.mem_of_getElem? ht))]
  | slice s =>
    simp only [Adt.setItemValue, pySliceList_map]
    cases hs : pySliceList fs s with
    | error e => rfl
    | ok ts =>
      simp only [Except.map, bind, Except.bind, List.any_map, List.getElem?_map]
      have : (ts.any ((fun t => Store.isinst W (h.map (moveObj f)) v t) ∘ move f)) =
          ts.any fun t => Store.isinst W h v t := by
        rw [Bool.eq_iff_iff]
        simp only [List.any_eq_true, Function.comp]
        refine exists_congr fun t => and_congr_right fun ht => ?_
        rw [isinst_move hW hh v (hp t (pySliceList_mem hs t ht))]
      rw [this]
      cases h[v]? with
      | none => rfl
      | some o => simp only [Option.map_some, iterObj_move]
  | str n => rfl

def moveOut (f : Nat) (o : Adt.Out) : Adt.Out := ⟨o.st.map (moveObj f), o.res⟩

include hW in
theorem setItem_move (r : Ref) (idx : Adt.Idx) (v : Ref) :
    Store.setItem W (h.map (moveObj f)) r idx v = moveOut f (Store.setItem W h r idx v) := by
  unfold Store.setItem
  rw [List.getElem?_map]
  cases ho : h[r]? with
  | none => rfl
  | some o =>
    cases o with
    | tup T a vs =>
      simp only [Option.map_some, moveObj, view_move]
      cases hv : T.view with
      | none => rfl
      | some p =>
        obtain ⟨k, fs⟩ := p
        simp only [Option.map_some, setItemValue_move hW hh k (view_plain hv (plain_at hh ho))]
        cases Adt.setItemValue W h k fs vs idx v with
        | error e => rfl
        | ok vs' => simp [moveOut, List.map_set, moveObj]
    | _ => rfl

include hW in
theorem setAttr_move (r : Ref) (n : Name) (v : Ref) :
    Store.setAttr W (h.map (moveObj f)) r n v = moveOut f (Store.setAttr W h r n v) := by
  unfold Store.setAttr
  rw [List.getElem?_map]
  cases ho : h[r]? with
  | none => rfl
  | some o =>
    cases o with
    | tup T a vs =>
      simp only [Option.map_some, moveObj, view_move]
      cases hv : T.view with
      | none => rfl
      | some p =>
        obtain ⟨k, fs⟩ := p
        simp only [Option.map_some, List.getElem?_map]
        split
        · cases ht : fs[k.names.idxOf n]? with
          | none => rfl
          | some t =>
            simp only [Option.map_some,
              isinst_move hW hh v (view_plain hv (plain_at hh ho) t (List.mem_of_getElem? ht)), setItem_move hW hh]
            split <;> rfl
        · rfl
    | tag T i w =>
      simp only [Option.map_some, moveObj, view_move]
      cases hv : T.view with
      | none => rfl
      | some p =>
        obtain ⟨k, fs⟩ := p
        simp only [Option.map_some, List.getElem?_map]
        split
        · cases ht : fs[k.names.idxOf n]? with
          | none => rfl
          | some t =>
            simp only [Option.map_some,
              isinst_move hW hh v (view_plain hv (plain_at hh ho) t (List.mem_of_getElem? ht))]
            split
            · simp [moveOut, List.map_set, moveObj]
            · rfl
        · rfl
    | _ => rfl

include hf hW in
theorem setSum_move (r : Ref) {T' : Ty} (hT : Plain T') (v : Ref) :
    Store.setSum W (h.map (moveObj f)) r (move f T') v = moveOut f (Store.setSum W h r T' v) := by
  unfold Store.setSum
  rw [List.getElem?_map]
  cases ho : h[r]? with
  | none => rfl
  | some o =>
    cases o with
    | sum T w =>
      simp only [Option.map_some, moveObj, view_move]
      cases hv : T.view with
      | none => rfl
      | some p =>
        obtain ⟨k, fs⟩ := p
        simp only [Option.map_some, mem_moves hf hT (view_plain hv (plain_at hh ho)), isinst_move hW hh v hT]
        split
        · rfl
        · split
          · simp [moveOut, List.map_set, moveObj]
          · rfl
    | _ => rfl

omit hh in
theorem getItem_move (f : Nat) (h : Store) (r : Ref) (i : Int) : Store.getItem (h.map (moveObj f)) r i = h.getItem r i := by
  unfold Store.getItem
  rw [List.getElem?_map]
  cases h[r]? with
  | none => rfl
  | some o => cases o <;> rfl

/-- What reading an attribute gives, with the class declared with family `f`. -/
def moveGot (f : Nat) : Adt.Got → Adt.Got
  | .field v => .field v
  | .match_ m => .match_ m
  | .call T b v => .call (move f T) b v

omit hh in
theorem getAttr_move (f : Nat) (h : Store) (r : Ref) (n : Name) :
    Store.getAttr (h.map (moveObj f)) r n = (h.getAttr r n).map (moveGot f) := by
  unfold Store.getAttr
  rw [List.getElem?_map]
  cases h[r]? with
  | none => rfl
  | some o =>
    cases o with
    | tup T a vs =>
      simp only [Option.map_some, moveObj, view_move]
      cases T.view with
      | none => rfl
      | some p =>
        simp only [Option.map_some, getItem_move]
        split
        · cases h.getItem r (p.1.names.idxOf n) <;> rfl
        · rfl
    | tag T i w =>
      simp only [Option.map_some, moveObj, view_move]
      cases T.view with
      | none => rfl
      | some p =>
        simp only [Option.map_some, List.getElem?_map]
        split
        · split
          · cases p.2[p.1.names.idxOf Adt.matchName]? <;> rfl
          · rfl
        · rfl
    | _ => rfl

include hf hW in
theorem getSum_move (r : Ref) {T' : Ty} (hT : Plain T') :
    Store.getSum W (h.map (moveObj f)) r (move f T') = h.getSum W r T' := by
  unfold Store.getSum
  rw [List.getElem?_map]
  cases ho : h[r]? with
  | none => rfl
  | some o =>
    have hp := plain_at hh ho
    cases o with
    | sum T w =>
      simp only [Option.map_some, moveObj, view_move]
      cases hv : T.view with
      | none => rfl
      | some p => simp only [Option.map_some, mem_moves hf hT (view_plain hv hp), isinst_move hW hh w hT]
    | tag T i w =>
      simp only [Option.map_some, moveObj, view_move]
      cases hv : T.view with
      | none => rfl
      | some p => simp only [Option.map_some, mem_moves hf hT (view_plain hv hp), isinst_move hW hh w hT]
    | _ => rfl

theorem set_plain {r : Ref} {o o' : Adt.Obj} (ho : h[r]? = some o) (he : o'.cls = o.cls) : PlainStore (h.set r o') := by
  intro x hx
  rcases List.mem_or_eq_of_mem_set hx with hx | rfl
  · exact hh x hx
  · rw [he]; exact plain_at hh ho

theorem setItem_plain (r : Ref) (idx : Adt.Idx) (v : Ref) : PlainStore (Store.setItem W h r idx v).st := by
  unfold Store.setItem
  split
  · rename_i T a vs ho
    split
    · split
      · exact set_plain hh ho rfl
      · exact hh
    · exact hh
  · exact hh

theorem setAttr_plain (r : Ref) (n : Name) (v : Ref) : PlainStore (Store.setAttr W h r n v).st := by
  unfold Store.setAttr
  split
  · split
    · split
      · split
        · split
          · exact setItem_plain hh _ _ _
          · exact hh
        · exact hh
      · exact hh
    · exact hh
  · rename_i T i w ho
    split
    · split
      · split
        · split
          · have h1 : PlainStore (h.set r (.tag T i v)) := set_plain hh ho rfl
            have hr : r < h.length := (List.getElem?_eq_some_iff.1 ho).1
            exact set_plain h1 (o := .tag T i v) (by simp [hr]) rfl
          · exact hh
        · exact hh
      · exact hh
    · exact hh
  · exact hh

theorem setSum_plain (r : Ref) (T : Ty) (v : Ref) : PlainStore (Store.setSum W h r T v).st := by
  unfold Store.setSum
  split
  · rename_i T w ho
    split
    · split
      · exact hh
      · split
        · exact set_plain hh ho rfl
        · exact hh
    · exact hh
  · exact hh

end

/-! ### Running a function with two families -/

mutual
theorem move_zero : ∀ T : Ty, move 0 T = T
  | .leaf (.vec k s) => by simp [move, moveLeaf]
  | .leaf (.cls 0) => rfl
  | .leaf (.cls (c + 1)) => rfl
  | .enum e => rfl
  | .node k fs => by rw [move, moves_zero fs]
  | .mod m t => by rw [move, move_zero t]
theorem moves_zero : ∀ fs : List Ty, moves 0 fs = fs
  | [] => rfl
  | t :: ts => by rw [moves, move_zero t, moves_zero ts]
end

/-- The classes the statement names are declared with the concrete family. -/
def Stmt.Plain : Stmt → Prop
  | .new T _ _ => Records.Plain T
  | .setSum _ T _ => Records.Plain T
  | .getSum _ T => Records.Plain T
  | _ => True

def Prog.Plain : Prog → Prop
  | .done => True
  | .stmt a p => a.Plain ∧ p.Plain
  | .ifTag _ _ p q => p.Plain ∧ q.Plain
  | .ifSum _ T p q => Records.Plain T ∧ p.Plain ∧ q.Plain

/-- The states have the same objects, of the same classes up to the family, and related vectors and bits. -/
structure StRel {F G : RFamily} (RV : F.V → G.V → Prop) (RB : F.B → G.B → Prop) (s : St F) (t : St G) : Prop where
  vars : s.vars = t.vars
  store : s.store = t.store.map (moveObj F.fam)
  vals : List.Forall₂ (RegRel RV RB) s.vals t.vals
  plain : PlainStore t.store

/-- As `Sim`, and related vectors are of the same class up to the family; `G` is the concrete family. -/
structure RSim (F G : RFamily) (E : PyErr → PyErr → Prop) (RV : F.V → G.V → Prop) (RB : F.B → G.B → Prop) : Prop
    extends Sim F.toFamily G.toFamily E RV RB where
  root : ∀ {x y}, RV x y → F.root x = G.root y
  fam : F.fam ≤ 2
  zero : G.fam = 0

theorem relP_eq {α : Type} {E : PyErr → PyErr → Prop} (hE : ∀ e, E e e) {m M : PyM α} (h : m = M) : RelP E (· = ·) m M := by
  subst h
  cases m with
  | error e => exact hE e
  | ok a => exact rfl

namespace RSim
variable {F G : RFamily} {E : PyErr → PyErr → Prop} {RV : F.V → G.V → Prop} {RB : F.B → G.B → Prop}
  (H : RSim F G E RV RB)
include H

theorem cls_rel {a : Reg F.V F.B} {b : Reg G.V G.B} (h : RegRel RV RB a b) :
    cls F a = move F.fam (cls G b) ∧ Records.Plain (cls G b) := by
  cases h with
  | vec h =>
    have h1 := H.root h
    have h2 : F.size _ = G.size _ := H.size h
    simp only [cls, vecTy, h1, h2, H.zero, move, moveLeaf, Records.Plain, plainLeaf]
    refine ⟨by simp, ?_⟩
    cases G.root _ <;> simp [rootNum]
  | bit h =>
    simp only [cls, bitTy, H.zero, move, moveLeaf, Records.Plain, plainLeaf]
    simp

theorem leaves_rel {vs : List (Reg F.V F.B)} {ws : List (Reg G.V G.B)} (h : List.Forall₂ (RegRel RV RB) vs ws) :
    ∀ n, leaves F n vs = (leaves G n ws).map (moveObj F.fam) ∧ PlainStore (leaves G n ws) := by
  induction h with
  | nil => intro n; exact ⟨rfl, by simp [PlainStore, leaves]⟩
  | cons hx _ ih =>
    intro n
    obtain ⟨h1, h2⟩ := H.cls_rel hx
    obtain ⟨h3, h4⟩ := ih (n + 1)
    refine ⟨by simp [leaves, h1, h3, moveObj], fun o ho => ?_⟩
    rcases List.mem_cons.1 ho with rfl | ho
    · exact h2
    · exact h4 o ho

theorem grow_rel {s : St F} {t : St G} (h : StRel RV RB s t) {vs : List (Reg F.V F.B)} {ws : List (Reg G.V G.B)}
    (hv : List.Forall₂ (RegRel RV RB) vs ws) : StRel RV RB (s.grow F vs) (t.grow G ws) := by
  have hl : s.vals.length = t.vals.length := h.vals.length_eq
  obtain ⟨h1, h2⟩ := H.leaves_rel (List.forall₂_drop t.vals.length hv) t.vals.length
  refine ⟨?_, ?_, hv, ?_⟩
  · simp only [St.grow, hl, h1, List.length_map, h.vars, h.store]
  · simp only [St.grow, hl, h1, h.store, List.map_append]
  · intro o ho
    simp only [St.grow, List.mem_append] at ho
    rcases ho with ho | ho
    · exact h.plain o ho
    · exact h2 o ho

omit H in
theorem payload_rel {s : St F} {t : St G} (h : StRel RV RB s t) :
    payload s.store s.vars = payload t.store t.vars := by
  funext x
  simp only [payload, h.vars, h.store, List.getElem?_map]
  cases var t.vars x with
  | error e => rfl
  | ok r =>
    simp only [bind, Except.bind]
    cases t.store[r]? with
    | none => rfl
    | some o => cases o <;> rfl

omit H in
theorem alloc_rel {s : St F} {t : St G} (h : StRel RV RB s t) {o : Adt.Obj} (ho : Records.Plain o.cls) :
    StRel RV RB (s.alloc F (moveObj F.fam o)) (t.alloc G o) := by
  refine ⟨by simp [St.alloc, h.vars, h.store], by simp [St.alloc, h.store], h.vals, fun x hx => ?_⟩
  simp only [St.alloc, List.mem_append, List.mem_singleton] at hx
  rcases hx with hx | rfl
  · exact h.plain x hx
  · exact ho

omit H in
theorem push_rel {s : St F} {t : St G} (h : StRel RV RB s t) (r : Ref) : StRel RV RB (s.push F r) (t.push G r) :=
  ⟨by simp [St.push, h.vars], h.store, h.vals, h.plain⟩

theorem done_rel {s : St F} {t : St G} (h : StRel RV RB s t) {o O : Adt.Out} (ho : o = moveOut F.fam O)
    (hp : PlainStore O.st) : RelP E (StRel RV RB) (Records.done o >>= fun h => .ok ⟨h, s.vals, s.vars⟩)
      (Records.done O >>= fun h => .ok ⟨h, t.vals, t.vars⟩) := by
  subst ho
  obtain ⟨st, res⟩ := O
  cases res with
  | error e => exact H.refl e
  | ok u => exact ⟨h.vars, rfl, h.vals, hp⟩

variable {W : World} (hW : Alike W F.fam)
include hW

theorem exec1_rel {s : St F} {t : St G} (h : StRel RV RB s t) {a : Stmt} (ha : a.Plain) :
    RelP E (StRel RV RB) (exec1 W F s a) (exec1 W G t a) := by
  cases a with
  | instr i =>
    simp only [exec1, payload_rel h]
    refine (relP_eq H.refl rfl).bind fun j j' hj => ?_
    subst hj
    exact (H.step_rel h.vals j).bind fun vs ws hv => H.grow_rel h hv
  | new T pos kw =>
    simp only [exec1, h.vars, h.store, H.zero, move_zero]
    refine (relP_eq H.refl rfl).bind fun p p' hp => ?_
    subst hp
    refine (relP_eq H.refl rfl).bind fun q q' hq => ?_
    subst hq
    rw [construct_move H.fam hW h.plain ha]
    cases hc : Adt.construct W t.store T p q with
    | error e => exact H.refl e
    | ok o => exact alloc_rel h (construct_plain ha hc)
  | member e i =>
    simp only [exec1]
    split
    · exact alloc_rel (o := .enum e i) h (by simp [Adt.Obj.cls, Records.Plain])
    · exact H.refl _
  | setItem x idx v =>
    simp only [exec1, h.vars, h.store]
    refine (relP_eq H.refl rfl).bind fun p p' hp => ?_
    subst hp
    refine (relP_eq H.refl rfl).bind fun q q' hq => ?_
    subst hq
    have := H.done_rel h (setItem_move hW h.plain p idx q) (setItem_plain h.plain p idx q)
    rw [h.vars] at this
    exact this
  | setAttr x n v =>
    simp only [exec1, h.vars, h.store]
    refine (relP_eq H.refl rfl).bind fun p p' hp => ?_
    subst hp
    refine (relP_eq H.refl rfl).bind fun q q' hq => ?_
    subst hq
    have := H.done_rel h (setAttr_move hW h.plain p n q) (setAttr_plain h.plain p n q)
    rw [h.vars] at this
    exact this
  | setSum x T v =>
    simp only [exec1, h.vars, h.store, H.zero, move_zero]
    refine (relP_eq H.refl rfl).bind fun p p' hp => ?_
    subst hp
    refine (relP_eq H.refl rfl).bind fun q q' hq => ?_
    subst hq
    have := H.done_rel h (setSum_move H.fam hW h.plain p ha q) (setSum_plain h.plain p T q)
    rw [h.vars] at this
    exact this
  | getItem x i =>
    simp only [exec1, h.vars, h.store, getItem_move]
    refine (relP_eq H.refl rfl).bind fun p p' hp => ?_
    subst hp
    refine (relP_eq H.refl rfl).bind fun q q' hq => ?_
    subst hq
    exact push_rel h q
  | getAttr x n =>
    simp only [exec1, h.vars, h.store, getAttr_move]
    refine (relP_eq H.refl rfl).bind fun p p' hp => ?_
    subst hp
    cases t.store.getAttr p n with
    | error e => exact H.refl e
    | ok g =>
      cases g with
      | field v => exact push_rel h v
      | match_ m =>
        simp only [Except.map, moveGot, bind, Except.bind]
        cases m.value with
        | error e => exact H.refl e
        | ok v => exact push_rel h v
      | call T b v => exact H.refl _
  | getSum x T =>
    simp only [exec1, h.vars, h.store, H.zero, move_zero]
    refine (relP_eq H.refl rfl).bind fun p p' hp => ?_
    subst hp
    rw [getSum_move H.fam hW h.plain p ha]
    refine (relP_eq H.refl rfl).bind fun q q' hq => ?_
    subst hq
    refine (relP_eq H.refl rfl).bind fun v v' hv => ?_
    subst hv
    exact push_rel h v

theorem exec_rel (p : Prog) : ∀ {s : St F} {t : St G}, StRel RV RB s t → p.Plain →
    RelP E (StRel RV RB) (exec W F s p) (exec W G t p) := by
  induction p with
  | done => intro s t h _; exact h
  | stmt a p ih =>
    intro s t h hp
    exact (H.exec1_rel hW h hp.1).bind fun u v huv => ih huv hp.2
  | ifTag x n p q ihp ihq =>
    intro s t h hp
    have ht : tagTest F s x n = tagTest G t x n := by
      simp only [tagTest, h.vars, h.store, getAttr_move]
      cases var t.vars x with
      | error e => rfl
      | ok r =>
        simp only [bind, Except.bind]
        cases t.store.getAttr r n with
        | error e => rfl
        | ok g => cases g <;> rfl
    simp only [exec, ht]
    refine (relP_eq H.refl rfl).bind fun b b' hb => ?_
    subst hb
    cases b with
    | true => exact ihp h hp.1
    | false => exact ihq h hp.2
  | ifSum x T p q ihp ihq =>
    intro s t h hp
    have ht : sumTest W F s x T = sumTest W G t x T := by
      simp only [sumTest, h.vars, h.store, H.zero, move_zero]
      cases var t.vars x with
      | error e => rfl
      | ok r => simp only [bind, Except.bind, getSum_move H.fam hW h.plain r hp.1]
    simp only [exec, ht]
    refine (relP_eq H.refl rfl).bind fun b b' hb => ?_
    subst hb
    cases b with
    | true => exact ihp h hp.2.1
    | false => exact ihq h hp.2.2

omit hW in
theorem start_rel {s : List (Reg F.V F.B)} {t : List (Reg G.V G.B)} (h : List.Forall₂ (RegRel RV RB) s t) :
    StRel RV RB (start F s) (start G t) :=
  H.grow_rel (s := ⟨[], [], []⟩) (t := ⟨[], [], []⟩) ⟨rfl, rfl, .nil, by simp [PlainStore]⟩ h

end RSim

theorem smt_rsim (e : Smt.Env) (S : Smt.Simplifier) : RSim (smtR S) concreteR (· = ·) (SVec e) (Smt.DenBit e) where
  toSim := smt_sim e S
  root := by
    intro x y h
    obtain ⟨r, hr⟩ := h.2.1
    have := h.kind hr
    show (match x.kind with | .root r => r | .poly .. => .bv) = match y.kind with | .root r => r | .poly .. => .bv
    rw [hr, this]
  fam := by show 1 ≤ 2; omega
  zero := rfl

theorem z3_rsim (e : Z3.Env) : RSim z3R concreteR ZErr (Z3.Den e) (Z3.DenBit e) where
  toSim := z3_sim e
  root := by
    intro x y h
    have := h.1
    show x.root = match y.kind with | .root r => r | .poly .. => .bv
    rw [this]
  fam := by show 2 ≤ 2; omega
  zero := rfl

end HW.Circuit.Records
