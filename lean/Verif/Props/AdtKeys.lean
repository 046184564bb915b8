import Verif.Lemmas.Adt.Keys
import Verif.Props.AdtShare
import Verif.Props.AdtEq

/-!
# Property C158: dictionaries with ADT values as keys
-/

namespace HW

open Adt KeyMachine

variable {W : World} {L : Leaves} {P : Val → Prop}

namespace Adt

/-- A set of values on which `==` is an equivalence that `hash` respects. -/
structure Keys (W : World) (P : Val → Prop) : Prop where
  anti : W.Antisymm
  wt : ∀ x, P x → x.WT W
  unrelated : ∀ x y, P x → P y → Unrelated W x y

theorem Keys.symm (hP : Keys W P) (x y : Val) (hx : P x) (hy : P y) : Val.eq W L x y = Val.eq W L y x :=
  C56_symm hP.anti (hP.wt x hx) (hP.wt y hy)

theorem Keys.trans (hP : Keys W P) (x y z : Val) (hx : P x) (hy : P y) (hz : P z) :
    Val.eq W L x y = true → Val.eq W L y z = true → Val.eq W L x z = true :=
  C56_trans_partial (hP.wt x hx) (hP.wt y hy) (hP.wt z hz) (hP.unrelated x y hx hy) (hP.unrelated y z hy hz)

theorem Keys.hash (hP : Keys W P) {x y : Val} (hx : P x) (hy : P y) (h : Val.eq W L x y = true) : x.hash L = y.hash L :=
  C56_hash_partial ((hP.unrelated x y hx hy).sumApart (hP.wt x hx) (hP.wt y hy))
    ((hP.unrelated y x hy hx).sumApart (hP.wt y hy) (hP.wt x hx)) h

/-- An entry, and the value of its key with what is stored under it. -/
structure Holds' (L : Leaves) (P : Val → Prop) (h : Store) (e : KeyEntry) (p : Val × Int) : Prop where
  reads : h.Reads e.key p.1
  hash : p.1.hash L = .ok e.hash
  key : P p.1
  val : e.val = p.2

structure KInv (W : World) (L : Leaves) (P : Val → Prop) (s : KeyMachine) (t : ValueMap) (D : List (Val × Int)) : Prop where
  store : t.store = s.store
  dict : List.Forall₂ (Holds' L P s.store) s.dict D
  apart : (D.map (·.1)).Pairwise fun a b => Val.eq W L a b = false
  map : ∀ x, P x → t.map x = lookBy (Val.eq W L) D x

theorem entries_keys {h : Store} {d : List KeyEntry} {D : List (Val × Int)} (hd : List.Forall₂ (Holds' L P h) d D) :
    ∀ p ∈ D, P p.1 := by
  induction hd with
  | nil => simp
  | cons h1 _ ih =>
    intro p hp
    rcases List.mem_cons.1 hp with rfl | hp
    · exact h1.key
    · exact ih p hp

theorem find_eq (hP : Keys W P) {h : Store} {a : Ref} {x : Val} {n : Int} (ha : h.Reads a x) (hx : P x)
    (hn : x.hash L = .ok n) {d : List KeyEntry} {D : List (Val × Int)} (hd : List.Forall₂ (Holds' L P h) d D) :
    find W L h a x n d = .ok (D.findIdx? fun p => Val.eq W L p.1 x) := by
  induction hd with
  | nil => rfl
  | @cons e p d D h1 _ ih =>
    unfold find
    rw [List.findIdx?_cons, read_whole.2 h1.reads, ih]
    by_cases hh : e.hash = n
    · by_cases hk : e.key = a
      · have : p.1 = x := h1.reads.unique (hk ▸ ha)
        simp [hh, hk, this, C56_refl, pure, Except.pure]
      · cases he : Val.eq W L p.1 x <;> simp [hh, hk, he, pure, Except.pure, bind, Except.bind]
    · have he : Val.eq W L p.1 x = false := by
        cases he : Val.eq W L p.1 x with
        | false => rfl
        | true =>
          have := hP.hash h1.key hx he
          rw [h1.hash, hn] at this
          exact absurd (Except.ok.inj this) hh
      simp [hh, he, pure, Except.pure, bind, Except.bind]

theorem at'_reads {t : ValueMap} {k : Ref} {x : Val} (hr : t.store.Reads k x) (f : Val → ValueMap × PyM (Option Int)) :
    (x.Frozen → t.at' k f = f x) ∧ (¬ x.Frozen → t.at' k f = (t, .error .typeError)) := by
  have he : ∃ x, t.store.Reads k x := ⟨x, hr⟩
  have hc : he.choose = x := he.choose_spec.unique hr
  constructor <;> intro hf <;> simp [ValueMap.at', he, hc, hf]

theorem at'_none {t : ValueMap} {k : Ref} (hr : ¬ ∃ x, t.store.Reads k x) (f : Val → ValueMap × PyM (Option Int)) :
    t.at' k f = (t, .error .nameError) := by
  simp [ValueMap.at', hr]

/-- Looking a key up, in the dictionary and in the function. -/
theorem seek_cases (hP : Keys W P) {s : KeyMachine} {t : ValueMap} {D : List (Val × Int)} (hI : KInv W L P s t D) (k : Ref)
    (hk : ∀ x, s.store.Reads k x → P x) (f : Val → ValueMap × PyM (Option Int)) :
    (∃ e, s.seek W L k = .error e ∧ t.at' k f = (t, .error e)) ∨
    ∃ x n, s.store.Reads k x ∧ P x ∧ x.hash L = .ok n ∧ t.at' k f = f x ∧
      s.seek W L k = .ok (n, D.findIdx? fun p => Val.eq W L p.1 x) := by
  by_cases hr : ∃ x, s.store.Reads k x
  · obtain ⟨x, hr⟩ := hr
    have hr' : t.store.Reads k x := by rw [hI.store]; exact hr
    rcases hash_cases (L := L) x (hP.wt x (hk x hr)) with ⟨h1, n, h2⟩ | ⟨h1, h2⟩
    · refine .inr ⟨x, n, hr, hk x hr, h2, (at'_reads hr' f).1 h1, ?_⟩
      simp [seek, read_whole.2 hr, h2, find_eq hP hr (hk x hr) h2 hI.dict, bind, Except.bind, pure, Except.pure]
    · refine .inl ⟨.typeError, ?_, (at'_reads hr' f).2 h1⟩
      simp [seek, read_whole.2 hr, h2, bind, Except.bind]
  · refine .inl ⟨.nameError, ?_, at'_none (by rw [hI.store]; exact hr) f⟩
    simp [seek, whole_none hr, bind, Except.bind]

theorem entries_modify {R : KeyEntry → Val × Int → Prop} {d : List KeyEntry} {D : List (Val × Int)}
    {f : KeyEntry → KeyEntry} {g : Val × Int → Val × Int} (hd : List.Forall₂ R d D) (hf : ∀ e p, R e p → R (f e) (g p)) :
    ∀ i, List.Forall₂ R (d.modify i f) (D.modify i g) := by
  induction hd with
  | nil => intro i; simp
  | cons h1 h2 ih =>
    intro i
    cases i with
    | zero => simpa using ⟨hf _ _ h1, h2⟩
    | succ i => simpa using ⟨h1, ih i⟩

theorem entries_erase {R : KeyEntry → Val × Int → Prop} {d : List KeyEntry} {D : List (Val × Int)}
    (hd : List.Forall₂ R d D) : ∀ i, List.Forall₂ R (d.eraseIdx i) (D.eraseIdx i) := by
  induction hd with
  | nil => intro i; simp
  | cons h1 h2 ih =>
    intro i
    cases i with
    | zero => simpa using h2
    | succ i => simpa using ⟨h1, ih i⟩

theorem entries_get {R : KeyEntry → Val × Int → Prop} {d : List KeyEntry} {D : List (Val × Int)}
    (hd : List.Forall₂ R d D) (hv : ∀ e p, R e p → e.val = p.2) (i : Nat) : d[i]?.map (·.val) = D[i]?.map (·.2) := by
  induction hd generalizing i with
  | nil => simp
  | cons h1 h2 ih =>
    cases i with
    | zero => simpa using hv _ _ h1
    | succ i => simpa using ih i

theorem map_fst_modify (D : List (Val × Int)) (v : Int) (i : Nat) :
    (D.modify i fun p => (p.1, v)).map (·.1) = D.map (·.1) := by
  induction D generalizing i with
  | nil => simp
  | cons p D ih => cases i <;> simp [ih]

/-- Steps of the dictionary and of the function agree. -/
theorem exec_kinv (hP : Keys W P) {s : KeyMachine} {t : ValueMap} {D : List (Val × Int)} (hI : KInv W L P s t D) (c : KInstr)
    (hc : s.KeysKept c) (hk : ∀ k x, keyOf c = some k → s.store.Reads k x → P x) :
    (s.exec W L c).2 = (t.exec W L c).2 ∧ ∃ D', KInv W L P (s.exec W L c).1 (t.exec W L c).1 D' := by
  have hPD := entries_keys hI.dict
  cases c with
  | op c =>
    refine ⟨by simp [KeyMachine.exec, ValueMap.exec, hI.store], D, ?_⟩
    refine ⟨by simp [KeyMachine.exec, ValueMap.exec, hI.store], ?_, hI.apart, hI.map⟩
    have hd := hI.dict
    have hc : ∀ t, c.target = some t → ∀ e ∈ s.dict, ¬ Reach s.store e.key t := hc
    simp only [KeyMachine.exec]
    clear hI hPD hk
    generalize s.dict = d at hd hc
    induction hd with
    | nil => exact .nil
    | @cons e p _ _ h1 _ ih =>
      refine .cons ⟨?_, h1.hash, h1.key, h1.val⟩ (ih fun t ht e he => hc t ht e (by simp [he]))
      exact C149_unreached (W := W) h1.reads (ops := [c]) fun op hop u hu => by
        simp only [List.mem_singleton] at hop
        subst hop
        exact hc u hu e (by simp)
  | put k v =>
    simp only [KeyMachine.exec, ValueMap.exec]
    rcases seek_cases hP hI k (fun x => hk k x rfl) (fun x => (t.update W L x (some v), .ok none)) with
      ⟨e, h1, h2⟩ | ⟨x, n, hr, hx, hn, h2, h1⟩
    · rw [h1, h2]; exact ⟨rfl, D, hI⟩
    · rw [h1, h2]
      cases hf : D.findIdx? (fun p => Val.eq W L p.1 x) with
      | none =>
        obtain ⟨-, h4⟩ := lookBy_none hf
        refine ⟨rfl, D ++ [(x, v)], hI.store, ?_, ?_, fun y hy => ?_⟩
        · exact List.rel_append hI.dict (.cons ⟨hr, hn, hx, rfl⟩ .nil)
        · rw [List.map_append]
          refine List.pairwise_append.2 ⟨hI.apart, by simp, fun a ha b hb => ?_⟩
          obtain ⟨p, hp, rfl⟩ := List.mem_map.1 ha
          simp only [List.map_cons, List.map_nil, List.mem_singleton] at hb
          subst hb
          exact h4 p hp
        · rw [lookBy_append hP.symm hP.trans hPD hx v h4 hy, ← hI.map y hy]; rfl
      | some i =>
        obtain ⟨-, -, h5, -⟩ := lookBy_some hP.symm hP.trans hPD hx hf
        refine ⟨rfl, D.modify i fun p => (p.1, v), hI.store, ?_, ?_, fun y hy => ?_⟩
        · exact entries_modify (f := fun e => { e with val := v }) (g := fun p => (p.1, v)) hI.dict (fun e p h => ⟨h.reads, h.hash, h.key, rfl⟩) i
        · rw [map_fst_modify]; exact hI.apart
        · rw [h5 v y hy, ← hI.map y hy]; rfl
  | get k =>
    simp only [KeyMachine.exec, ValueMap.exec]
    rcases seek_cases hP hI k (fun x => hk k x rfl) (fun x => (t, if t.map x = none then .error .keyError else .ok (t.map x)))
      with ⟨e, h1, h2⟩ | ⟨x, n, hr, hx, hn, h2, h1⟩
    · rw [h1, h2]; exact ⟨rfl, D, hI⟩
    · rw [h1, h2, hI.map x hx]
      cases hf : D.findIdx? (fun p => Val.eq W L p.1 x) with
      | none => rw [if_pos (lookBy_none hf).1]; exact ⟨rfl, D, hI⟩
      | some i =>
        obtain ⟨h3, h4, -, -⟩ := lookBy_some hP.symm hP.trans hPD hx hf
        rw [if_neg h4]
        refine ⟨?_, D, hI⟩
        dsimp only
        rw [h3, entries_get hI.dict fun e p h => h.val]
  | del k =>
    simp only [KeyMachine.exec, ValueMap.exec]
    rcases seek_cases hP hI k (fun x => hk k x rfl)
      (fun x => if t.map x = none then (t, .error .keyError) else (t.update W L x none, .ok none)) with
      ⟨e, h1, h2⟩ | ⟨x, n, hr, hx, hn, h2, h1⟩
    · rw [h1, h2]; exact ⟨rfl, D, hI⟩
    · rw [h1, h2, hI.map x hx]
      cases hf : D.findIdx? (fun p => Val.eq W L p.1 x) with
      | none => rw [if_pos (lookBy_none hf).1]; exact ⟨rfl, D, hI⟩
      | some i =>
        obtain ⟨-, h4, -, h6⟩ := lookBy_some hP.symm hP.trans hPD hx hf
        rw [if_neg h4]
        refine ⟨rfl, D.eraseIdx i, hI.store, entries_erase hI.dict i, ?_, fun y hy => ?_⟩
        · exact hI.apart.sublist ((List.eraseIdx_sublist D i).map _)
        · rw [h6 hI.apart y hy, ← hI.map y hy]; rfl

theorem koutputs_eq (hP : Keys W P) (p : List KInstr) : ∀ {s : KeyMachine} {t : ValueMap} {D : List (Val × Int)},
    KInv W L P s t D → Disciplined W L P s p → s.outputs W L p = t.outputs W L p := by
  induction p with
  | nil => intros; rfl
  | cons c p ih =>
    intro s t D hI hd
    obtain ⟨h1, D', h2⟩ := exec_kinv hP hI c hd.1 hd.2.1
    rw [KeyMachine.outputs, ValueMap.outputs, h1, ih h2 hd.2.2]

end Adt

/-- **C158 (partial)** whatever the hash function, a dictionary whose keys are ADT values of classes that do not derive from
each other is a function on values: what is stored under a key is found under every equal object, and under no other; a
value that has been assigned to is refused with `TypeError`.  As long as neither the keys in the dictionary nor their parts
are assigned to. -/
theorem C158_map_partial (hP : Keys W P) (h : Store) (p : List KInstr) (hp : Disciplined W L P ⟨h, []⟩ p) :
    KeyMachine.outputs W L ⟨h, []⟩ p = ValueMap.outputs W L ⟨h, fun _ => none⟩ p :=
  koutputs_eq hP p (D := []) ⟨rfl, .nil, .nil, fun _ _ => rfl⟩ hp

/-- **C158** (hashable) exactly the values none of whose parts has been assigned to can be keys. -/
theorem C158_hashable {x : Val} (hx : x.WT W) :
    (x.Frozen → ∃ n, x.hash L = .ok n) ∧ (¬ x.Frozen → x.hash L = .error .typeError) := by
  rcases hash_cases (L := L) x hx with ⟨h1, h2⟩ | ⟨h1, h2⟩
  · exact ⟨fun _ => h2, fun h => absurd h1 h⟩
  · exact ⟨fun h => absurd h h1, fun _ => h2⟩

/-- **C158 refuted** for keys assigned to: after `t = T(x); d[t] = 7; t[0] = x` the entry is found with `t` no more, nor
with a new `T(x)`, and it cannot be deleted. -/
theorem C158_assigned_refuted : KeyMachine.outputs W L ⟨[], []⟩
    [.op (.other (.leaf (.cls 0)) 5), .op (.new (mkTuple (.user 0) [.leaf (.cls 0)]) [0] []), .put 1 7,
     .op (.setItem 1 (.int 0) 0), .op (.new (mkTuple (.user 0) [.leaf (.cls 0)]) [0] []), .get 1, .get 2, .del 1, .del 2] =
    [.ok none, .ok none, .ok none, .ok none, .ok none, .error .typeError, .error .keyError, .error .typeError,
     .error .keyError] := by
  have h0 := C52_assigned_negation (W := W) (L := L) (mkTuple (.user 0) [.leaf (.cls 0)]) [.leaf (.leaf (.cls 0)) 5]
  simp only [mkTuple] at h0
  simp [KeyMachine.outputs, KeyMachine.exec, seek, find, Store.whole, Store.step, Ty.isPlain, Ty.view, Store.alloc, construct,
    mkTuple, callTuple, initTuple, checkFields, Store.isinst, Obj.cls, bind, Except.bind, pure, Except.pure, W.sub_refl,
    Store.setItem, setItemValue, pyIndex, Store.read, Val.hash, Val.hashes, Except.map, h0]

/-- **C158 refuted** for keys with parts assigned to: after `t = T(x); d[t] = 7` and a change of the vector `x` in place, the
entry is found neither with `t` nor with a `T` of what `x` was. -/
theorem C158_part_refuted (hh : L.hashTuple [L.hash (.leaf (.cls 0), 5)] ≠ L.hashTuple [L.hash (.leaf (.cls 0), 6)])
    (he : L.eq (.leaf (.cls 0), 6) (.leaf (.cls 0), 5) = false) : KeyMachine.outputs W L ⟨[], []⟩
    [.op (.other (.leaf (.cls 0)) 5), .op (.new (mkTuple (.user 0) [.leaf (.cls 0)]) [0] []), .put 1 7,
     .op (.touch 0 6), .op (.other (.leaf (.cls 0)) 5), .op (.new (mkTuple (.user 0) [.leaf (.cls 0)]) [2] []), .get 1, .get 3] =
    [.ok none, .ok none, .ok none, .ok none, .ok none, .ok none, .error .keyError, .error .keyError] := by
  have h0 : Val.eq W L (.tup (mkTuple (.user 0) [.leaf (.cls 0)]) false [.leaf (.leaf (.cls 0)) 6])
      (.tup (mkTuple (.user 0) [.leaf (.cls 0)]) false [.leaf (.leaf (.cls 0)) 5]) = false := by
    rw [Val.eq, Val.eqv]
    split
    · rename_i f _; cases f <;> simp [Val.eqvs, Val.eqv, he, L.symm (.leaf (.cls 0), 5)]
    · rfl
  simp only [mkTuple] at h0
  simp [KeyMachine.outputs, KeyMachine.exec, seek, find, Store.whole, Store.step, Ty.isPlain, Ty.view, Store.alloc, construct,
    mkTuple, callTuple, initTuple, checkFields, Store.isinst, Obj.cls, bind, Except.bind, pure, Except.pure, W.sub_refl,
    Store.read, Val.hash, Val.hashes, Except.map, h0, hh]

/-- **C158 refuted** across classes that derive from each other: a `TaggedUnion` value equal to the key, a `Sum` value, is not
found. -/
theorem C158_derived_refuted (hA : W.Antisymm) {e : EnumT} (he : e = ⟨0, [(1, .int 5)]⟩)
    (hs : W.sub (mkTagged W (.user 1) 1 0 [8, 9] [.enum e, .enum e]) (mkSum W (.user 0) [.enum e]) = true) :
    ∃ (h : Store) (x y : Val), x.WT W ∧ y.WT W ∧ h.Reads 1 x ∧ h.Reads 2 y ∧ Val.eq W L x y = true ∧
      KeyMachine.outputs W L ⟨h, []⟩ [.put 1 7, .get 2] = [.ok none, .error .keyError] := by
  have hin : ∀ w : Val, w.In (.enum e 0) → w.Ok W := by
    intro w hw
    cases hw
    show 0 < e.members.length
    rw [he]; simp
  have hv : e.value 0 = some (.int 5) := by rw [he]; rfl
  refine ⟨[.enum e 0, .sum (mkSum W (.user 0) [.enum e]) 0, .tag (mkTagged W (.user 1) 1 0 [8, 9] [.enum e, .enum e]) 1 0],
    .sum (mkSum W (.user 0) [.enum e]) (.enum e 0),
    .tag (mkTagged W (.user 1) 1 0 [8, 9] [.enum e, .enum e]) 1 (.enum e 0), ?_, ?_, ⟨2, rfl⟩, ⟨2, rfl⟩, ?_, ?_⟩
  · intro w hw
    cases hw with
    | self => exact ⟨_, _, rfl, rfl, .enum e, (W.mem_canon _ _).2 (by simp), W.sub_refl _⟩
    | sum hw => exact hin w hw
  · intro w hw
    cases hw with
    | self =>
        have hp := W.perm_canonF ⟨.tagged, .user 1, 1, 0, [8, 9]⟩ ([8, 9].zip [Ty.enum e, Ty.enum e])
        have hl : 1 < (W.canonF ⟨.tagged, .user 1, 1, 0, [8, 9]⟩ ([8, 9].zip [Ty.enum e, Ty.enum e])).length := by
          rw [hp.length_eq]; simp
        have hm := hp.mem_iff.1 (List.getElem_mem hl)
        refine ⟨_, _, .enum e, rfl, rfl, ?_, W.sub_refl _⟩
        rw [List.getElem?_map, List.getElem?_eq_getElem hl]
        simp only [List.zip_cons_cons, List.zip_nil_right, List.mem_cons, List.not_mem_nil, or_false] at hm
        rcases hm with hm | hm <;> simp [hm]
    | tag hw => exact hin w hw
  · obtain ⟨g, hg⟩ := (decides_iff (f := false)).2 (.inr hs)
    cases g with
    | false =>
        rw [Val.eq, Val.eqv]
        simp only [hg, eqv_refl]
    | true => cases hA _ _ (decides_some hg) hs
  · simp [KeyMachine.outputs, KeyMachine.exec, seek, find, Store.whole, Store.read, Val.hash, hv, Leaves.hashE, hashInt, hashSlot,
      bind, Except.bind, pure, Except.pure]

/-! A program that keeps to the conditions. -/

def Adt.demoKeys : List KInstr :=
  [.op (.other (.leaf (.cls 0)) 5), .op (.new (mkTuple (.user 0) [.leaf (.cls 0)]) [0] []), .put 1 7,
   .op (.new (mkTuple (.user 0) [.leaf (.cls 0)]) [0] []), .get 2, .op (.setItem 2 (.int 0) 0), .get 2, .get 1]

example : Keys World.std fun x => x.WT World.std :=
  ⟨by intro a b h _; simpa [World.std] using h, fun _ h => h, fun x y _ _ u v _ _ h => by simpa [World.std, eq_comm] using h⟩

theorem Adt.demo_wt : (Val.tup (mkTuple (.user 0) [.leaf (.cls 0)]) false [.leaf (.leaf (.cls 0)) 5]).WT World.std ∧
    (Val.tup (mkTuple (.user 0) [.leaf (.cls 0)]) true [.leaf (.leaf (.cls 0)) 5]).WT World.std := by
  constructor <;>
  · intro w hw
    cases hw with
    | self =>
      refine ⟨_, _, rfl, by simp, by simp, rfl, fun i v t h1 h2 => ?_⟩
      cases i with
      | zero => cases h1; cases h2; exact World.std.sub_refl _
      | succ i => simp at h1
    | tup hm hw =>
      simp only [List.mem_singleton] at hm
      subst hm
      cases hw
      rfl

example : Disciplined World.std L (fun x => x.WT World.std) ⟨[], []⟩ demoKeys := by
  have key : ∀ {h : Store} {k : Ref} {x y : Val} {n : Nat}, h.read n k = some y → y.WT World.std → h.Reads k x →
      x.WT World.std := fun h1 h2 h3 => by rw [h3.unique ⟨_, h1⟩]; exact h2
  have e1 := World.std.sub_refl
  unfold demoKeys
  simp [Disciplined, KeysKept, keyOf, Op.target, KeyMachine.exec, seek, find, Store.whole, Store.step, Ty.isPlain, Ty.view, Store.alloc, construct,
    mkTuple, callTuple, initTuple, checkFields, Store.isinst, Obj.cls, bind, Except.bind, pure, Except.pure, e1,
    Store.setItem, setItemValue, pyIndex, Store.read, Val.hash, Val.hashes, Except.map, C56_refl]
  refine ⟨?_, ?_, ?_, ?_, ?_⟩
  · rintro k x rfl h; exact key (n := 2) rfl demo_wt.1 h
  · rintro k x rfl h; exact key (n := 2) rfl demo_wt.1 h
  · intro h
    cases h with
    | part h1 h2 h3 =>
      cases h1
      simp only [Obj.parts, List.mem_singleton] at h2
      subst h2
      cases h3 with
      | part h1 h2 h3 => cases h1; simp [Obj.parts] at h2
  · rintro k x rfl h; exact key (n := 2) rfl demo_wt.2 h
  · rintro k x rfl h; exact key (n := 2) rfl demo_wt.1 h
example : KeyMachine.outputs World.std L ⟨[], []⟩ demoKeys =
    [.ok none, .ok none, .ok none, .ok none, .ok (some 7), .ok none, .error .typeError, .ok (some 7)] := by
  have e1 := World.std.sub_refl
  unfold demoKeys
  simp [KeyMachine.outputs, KeyMachine.exec, seek, find, Store.whole, Store.step, Ty.isPlain, Ty.view, Store.alloc, construct,
    mkTuple, callTuple, initTuple, checkFields, Store.isinst, Obj.cls, bind, Except.bind, pure, Except.pure, e1,
    Store.setItem, setItemValue, pyIndex, Store.read, Val.hash, Val.hashes, Except.map, C56_refl]

end HW
