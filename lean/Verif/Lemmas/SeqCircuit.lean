import Mathlib.Data.List.Induction
import Verif.Spec.SeqCircuit

/-! Unrolled circuits and their simulation; induction over cycles. -/

namespace HW.Circuit
open HW

/-- The state and the asserted bits of two runs. -/
def RunRel {V W B C : Type} (RV : V → W → Prop) (RB : B → C → Prop) (r : List (Reg V B) × List B)
    (r' : List (Reg W C) × List C) : Prop :=
  List.Forall₂ (RegRel RV RB) r.1 r'.1 ∧ List.Forall₂ RB r.2 r'.2

theorem forall₂_append {α β : Type} {R : α → β → Prop} {a b : List α} {a' b' : List β} (h : List.Forall₂ R a a')
    (h' : List.Forall₂ R b b') : List.Forall₂ R (a ++ b) (a' ++ b') := by
  induction h with
  | nil => exact h'
  | cons hx _ ih => exact .cons hx ih

namespace Sim
variable {F G : Family} {E : PyErr → PyErr → Prop} {RV : F.V → G.V → Prop} {RB : F.B → G.B → Prop}
  (H : Sim F G E RV RB)
include H

theorem readAll_rel {u : List (Reg F.V F.B)} {w : List (Reg G.V G.B)} (h : List.Forall₂ (RegRel RV RB) u w) :
    ∀ l : List Nat, RelP E (List.Forall₂ (RegRel RV RB)) (readAll F u l) (readAll G w l)
  | [] => .nil
  | i :: l => (H.read_rel h i).bind fun _ _ hab => (readAll_rel h l).bind fun _ _ hcd => List.Forall₂.cons hab hcd

variable (m : SeqCircuit)

theorem start_rel {p : List (Reg F.V F.B)} {q : List (Reg G.V G.B)} (h : List.Forall₂ (RegRel RV RB) p q) :
    RelP E (List.Forall₂ (RegRel RV RB)) (start F m p) (start G m q) :=
  (H.run_rel m.reset h).bind fun _ _ hu => H.readAll_rel hu m.first

theorem cycle_rel {s i : List (Reg F.V F.B)} {t j : List (Reg G.V G.B)} (h : List.Forall₂ (RegRel RV RB) s t)
    (h' : List.Forall₂ (RegRel RV RB) i j) :
    RelP E (fun r r' => List.Forall₂ (RegRel RV RB) r.1 r'.1 ∧ RB r.2 r'.2) (cycle F m s i) (cycle G m t j) :=
  (H.run_rel m.body (forall₂_append h h')).bind fun _ _ hu => (H.readB_rel hu m.prop).bind fun _ _ hb =>
    (H.readAll_rel hu m.next).bind fun _ _ hn => ⟨hn, hb⟩

theorem unroll_rel : ∀ {is : List (List (Reg F.V F.B))} {js : List (List (Reg G.V G.B))}
    {s : List (Reg F.V F.B)} {t : List (Reg G.V G.B)}, List.Forall₂ (RegRel RV RB) s t →
    List.Forall₂ (List.Forall₂ (RegRel RV RB)) is js → RelP E (RunRel RV RB) (unroll F m s is) (unroll G m t js)
  | [], _, _, _, h, .nil => ⟨h, .nil⟩
  | _ :: _, _, _, _, h, .cons hi his =>
    (H.cycle_rel m h hi).bind fun _ _ hr => (unroll_rel hr.1 his).bind fun _ _ hr' => ⟨hr'.1, .cons hr.2 hr'.2⟩

theorem trace_rel {p : List (Reg F.V F.B)} {q : List (Reg G.V G.B)} {is : List (List (Reg F.V F.B))}
    {js : List (List (Reg G.V G.B))} (h : List.Forall₂ (RegRel RV RB) p q)
    (h' : List.Forall₂ (List.Forall₂ (RegRel RV RB)) is js) :
    RelP E (RunRel RV RB) (trace F m p is) (trace G m q js) :=
  (H.start_rel m h).bind fun _ _ hs => H.unroll_rel m hs h'

end Sim

section
variable (F : Family) (m : SeqCircuit)

theorem unroll_append (s : List (Reg F.V F.B)) (is js : List (List (Reg F.V F.B))) :
    unroll F m s (is ++ js) = (do
      let r ← unroll F m s is
      let r' ← unroll F m r.1 js
      return (r'.1, r.2 ++ r'.2)) := by
  induction is generalizing s with
  | nil =>
    simp only [List.nil_append, unroll, bind, Except.bind]
    cases unroll F m s js <;> rfl
  | cons i is ih =>
    simp only [List.cons_append, unroll, bind, Except.bind]
    cases cycle F m s i with
    | error => rfl
    | ok r =>
      dsimp only
      rw [ih]
      simp only [bind, Except.bind]
      cases unroll F m r.1 is with
      | error => rfl
      | ok r' =>
        dsimp only [pure, Except.pure]
        cases unroll F m r'.1 js <;> rfl

theorem unroll_length {s : List (Reg F.V F.B)} {is : List (List (Reg F.V F.B))} {r}
    (h : unroll F m s is = .ok r) : r.2.length = is.length := by
  induction is generalizing s r with
  | nil => cases h; rfl
  | cons i is ih =>
    obtain ⟨a, _, h⟩ := bind_ok h
    obtain ⟨b, hb, h⟩ := bind_ok h
    cases h
    simp [ih hb]

theorem unroll_split {s : List (Reg F.V F.B)} {is js : List (List (Reg F.V F.B))} {r}
    (h : unroll F m s (is ++ js) = .ok r) :
    ∃ a b, unroll F m s is = .ok a ∧ unroll F m a.1 js = .ok b ∧ r = (b.1, a.2 ++ b.2) := by
  rw [unroll_append] at h
  obtain ⟨a, ha, h⟩ := bind_ok h
  obtain ⟨b, hb, h⟩ := bind_ok h
  cases h
  exact ⟨a, b, ha, hb, rfl⟩

theorem unroll_join {s : List (Reg F.V F.B)} {is js : List (List (Reg F.V F.B))} {a b}
    (ha : unroll F m s is = .ok a) (hb : unroll F m a.1 js = .ok b) :
    unroll F m s (is ++ js) = .ok (b.1, a.2 ++ b.2) := by
  rw [unroll_append, ha]
  simp only [bind, Except.bind, hb]
  rfl
end

theorem forall₂_split {α β : Type} {R : α → β → Prop} {a b : List α} {a' b' : List β}
    (h : List.Forall₂ R (a ++ b) (a' ++ b')) (hl : a.length = a'.length) :
    List.Forall₂ R a a' ∧ List.Forall₂ R b b' := by
  induction a generalizing a' with
  | nil =>
    cases a' with
    | nil => exact ⟨.nil, h⟩
    | cons => simp at hl
  | cons x a ih =>
    cases a' with
    | nil => simp at hl
    | cons x' a' =>
      cases h with
      | cons hx h =>
        obtain ⟨h1, h2⟩ := ih h (by simpa using hl)
        exact ⟨.cons hx h1, h2⟩

theorem forall₂_flatten {α β : Type} {R : α → β → Prop} {a : List (List α)} {b : List (List β)}
    (h : List.Forall₂ (List.Forall₂ R) a b) : List.Forall₂ R a.flatten b.flatten := by
  induction h with
  | nil => exact .nil
  | cons hx _ ih => exact forall₂_append hx ih

theorem forall₂_unflatten {α β : Type} {R S : α → β → Prop} {a : List (List α)} {b : List (List β)}
    (h : List.Forall₂ (List.Forall₂ S) a b) (hf : List.Forall₂ R a.flatten b.flatten) :
    List.Forall₂ (List.Forall₂ R) a b := by
  induction h with
  | nil => exact .nil
  | cons hx _ ih =>
    obtain ⟨h1, h2⟩ := forall₂_split hf hx.length_eq
    exact .cons h1 (ih h2)

/-- What induction over cycles needs of a family whose bits have truth values under assignments. -/
structure Solver where
  F : Family
  Env : Type
  inp : List Char × Port → Reg F.V F.B
  E : PyErr → PyErr → Prop
  RV : Env → F.V → BVal → Prop
  RB : Env → F.B → Bool → Prop
  bool : Env → List Char → Bool
  bv : Env → List Char → (w : Nat) → BitVec w
  assign : (List Char → Bool) → (List Char → (w : Nat) → BitVec w) → Env
  bool_assign : ∀ f g, bool (assign f g) = f
  bv_assign : ∀ f g, bv (assign f g) = g
  sim : ∀ e, Sim F concrete E (RV e) (RB e)
  func : ∀ {e b c c'}, RB e b c → RB e b c' → c = c'
  reads : ∀ {e} {ps : Ports} {t}, List.Forall₂ (Reads (bool e) (bv e)) ps t →
    (∀ q r n, (q, Port.vec r n) ∈ ps → 0 < n) → List.Forall₂ (RegRel (RV e) (RB e)) (ps.map inp) t
  declared : List Char × Port → Reg F.V F.B → Prop
  typed : ∀ {e q x X}, RegRel (RV e) (RB e) x X → (declared q x ↔ InPort q X)

namespace Solver
variable (K : Solver) (m : SeqCircuit)

abbrev Holds : Ports → List Ports → Prop := Circuit.Holds K.F (fun e b => K.RB e b true) K.inp m
abbrev Induction : Ports → Ports → (Nat → Ports) → Nat → Prop :=
  Circuit.Induction K.F (fun e b => K.RB e b true) K.inp K.declared m

/-- Inputs as values of variables. -/
theorem values {pp : Ports} {iss : List Ports} (hp : PortsOk (pp ++ iss.flatten)) {t : List (Reg BVal Bool)}
    {is : List (List (Reg BVal Bool))} (ht : List.Forall₂ InPort pp t) (hi : List.Forall₂ (List.Forall₂ InPort) iss is) :
    ∃ e, List.Forall₂ (RegRel (K.RV e) (K.RB e)) (pp.map K.inp) t ∧
      List.Forall₂ (List.Forall₂ (RegRel (K.RV e) (K.RB e))) (iss.map (·.map K.inp)) is := by
  obtain ⟨f, g, h⟩ := exists_values (forall₂_append ht (forall₂_flatten hi)) hp.1
  obtain ⟨h1, h2⟩ := forall₂_split h ht.length_eq
  have h3 := forall₂_unflatten hi h2
  refine ⟨K.assign f g, K.reads (by rw [K.bool_assign, K.bv_assign]; exact h1) fun q r n hq => hp.2 q r n (by simp [hq]), ?_⟩
  have hpos : ∀ ps ∈ iss, ∀ q r n, (q, Port.vec r n) ∈ ps → 0 < n := fun ps hps q r n hq =>
    hp.2 q r n (List.mem_append.2 (Or.inr (List.mem_flatten.2 ⟨ps, hps, hq⟩)))
  clear hi h h1 h2 hp ht
  induction h3 with
  | nil => exact .nil
  | cons hx _ ih =>
    refine .cons (K.reads (by rw [K.bool_assign, K.bv_assign]; exact hx) (hpos _ (by simp))) (ih fun ps hps => hpos ps (by simp [hps]))

/-- Values of variables as inputs. -/
theorem back {pp : Ports} {iss : List Ports} (hp : PortsOk (pp ++ iss.flatten)) (e : K.Env) :
    List.Forall₂ (RegRel (K.RV e) (K.RB e)) (pp.map K.inp) (pp.map (readBack (K.bool e) (K.bv e))) ∧
    List.Forall₂ (List.Forall₂ (RegRel (K.RV e) (K.RB e))) (iss.map (·.map K.inp))
      (iss.map (·.map (readBack (K.bool e) (K.bv e)))) := by
  refine ⟨K.reads (readBack_reads _ _ _) fun q r n hq => hp.2 q r n (by simp [hq]), ?_⟩
  have hpos : ∀ ps ∈ iss, ∀ q r n, (q, Port.vec r n) ∈ ps → 0 < n := fun ps hps q r n hq =>
    hp.2 q r n (List.mem_append.2 (Or.inr (List.mem_flatten.2 ⟨ps, hps, hq⟩)))
  clear hp
  induction iss with
  | nil => exact .nil
  | cons ps iss ih =>
    exact .cons (K.reads (readBack_reads _ _ _) (hpos _ (by simp))) (ih fun ps hps => hpos ps (by simp [hps]))

theorem back_in (f : List Char → Bool) (g : List Char → (w : Nat) → BitVec w) (iss : List Ports) :
    List.Forall₂ (List.Forall₂ InPort) iss (iss.map (·.map (readBack f g))) := by
  induction iss with
  | nil => exact .nil
  | cons ps iss ih => exact .cons (reads_in (readBack_reads _ _ _)) ih

end Solver

theorem forall₂_mem {α β : Type} {R : α → β → Prop} {l : List α} {l' : List β} (h : List.Forall₂ R l l') :
    (∀ a ∈ l, ∃ b ∈ l', R a b) ∧ (∀ b ∈ l', ∃ a ∈ l, R a b) := by
  induction h with
  | nil => simp
  | @cons a b l l' hx _ ih =>
    constructor
    · intro x hx'
      simp only [List.mem_cons] at hx'
      rcases hx' with rfl | hx'
      · exact ⟨b, by simp, hx⟩
      · obtain ⟨y, hy, hr⟩ := ih.1 x hx'
        exact ⟨y, by simp [hy], hr⟩
    · intro x hx'
      simp only [List.mem_cons] at hx'
      rcases hx' with rfl | hx'
      · exact ⟨a, by simp, hx⟩
      · obtain ⟨y, hy, hr⟩ := ih.2 x hx'
        exact ⟨y, by simp [hy], hr⟩

namespace Solver
variable (K : Solver) (m : SeqCircuit)

theorem verdict {pp : Ports} {iss : List Ports} (hp : PortsOk (pp ++ iss.flatten)) : K.Holds m pp iss ↔ SimHolds m pp iss := by
  constructor
  · rintro ⟨r, hr, hv⟩ t is ht hi
    obtain ⟨e, h1, h2⟩ := K.values hp ht hi
    obtain ⟨w, hw, hk⟩ := RelP.ok_left ((K.sim e).trace_rel m h1 h2) hr
    refine ⟨w, hw, fun c hc => ?_⟩
    obtain ⟨b, hb, hbc⟩ := (forall₂_mem hk.2).2 c hc
    exact K.func hbc (hv e b hb)
  · intro hs
    have at_ : ∀ e, ∃ r, trace K.F m (pp.map K.inp) (iss.map (·.map K.inp)) = .ok r ∧ ∀ b ∈ r.2, K.RB e b true := by
      intro e
      obtain ⟨h1, h2⟩ := K.back hp e
      obtain ⟨w, hw, ho⟩ := hs _ _ (reads_in (readBack_reads (K.bool e) (K.bv e) pp)) (back_in (K.bool e) (K.bv e) iss)
      obtain ⟨r, hr, hk⟩ := RelP.ok_right ((K.sim e).trace_rel m h1 h2) hw
      refine ⟨r, hr, fun b hb => ?_⟩
      obtain ⟨c, hc, hbc⟩ := (forall₂_mem hk.2).1 b hb
      exact ho c hc ▸ hbc
    obtain ⟨r, hr, -⟩ := at_ (K.assign (fun _ => false) fun _ _ => 0)
    refine ⟨r, hr, fun e => ?_⟩
    obtain ⟨r', hr', h⟩ := at_ e
    cases hr.symm.trans hr'
    exact h

/-- A counterexample replays. -/
theorem replay {pp : Ports} {iss : List Ports} (hp : PortsOk (pp ++ iss.flatten)) {r}
    (hr : trace K.F m (pp.map K.inp) (iss.map (·.map K.inp)) = .ok r) (e : K.Env) :
    ∃ w, trace concrete m (pp.map (readBack (K.bool e) (K.bv e))) (iss.map (·.map (readBack (K.bool e) (K.bv e)))) = .ok w ∧
      List.Forall₂ (K.RB e) r.2 w.2 := by
  obtain ⟨h1, h2⟩ := K.back hp e
  obtain ⟨w, hw, hk⟩ := RelP.ok_left ((K.sim e).trace_rel m h1 h2) hr
  exact ⟨w, hw, hk.2⟩

end Solver

theorem inPort_name {q q' : List Char × Port} {x : Reg BVal Bool} (h : InPort q x) (he : q.2 = q'.2) : InPort q' x := by
  obtain ⟨n, p⟩ := q
  obtain ⟨n', p'⟩ := q'
  cases he
  cases h with
  | vec h1 h2 => exact .vec h1 h2
  | bit => exact .bit

theorem inPorts_same {ps ps' : Ports} {t : List (Reg BVal Bool)} (h : List.Forall₂ InPort ps t)
    (he : ps.map (·.2) = ps'.map (·.2)) : List.Forall₂ InPort ps' t := by
  induction h generalizing ps' with
  | nil => cases ps' with
    | nil => exact .nil
    | cons => simp at he
  | cons hx _ ih => cases ps' with
    | nil => simp at he
    | cons q ps' =>
      simp only [List.map_cons, List.cons.injEq] at he
      exact .cons (inPort_name hx he.1) (ih he.2)

theorem inPorts_range {ins : Nat → Ports} (hs : SamePorts ins) : ∀ {is : List (List (Reg BVal Bool))} (n : Nat),
    (∀ i ∈ is, List.Forall₂ InPort (ins 0) i) →
    List.Forall₂ (List.Forall₂ InPort) ((List.range' n is.length).map ins) is
  | [], _, _ => .nil
  | i :: is, n, h => by
    simp only [List.length_cons, List.range'_succ, List.map_cons]
    exact .cons (inPorts_same (h i (by simp)) (hs n).symm) (inPorts_range hs (n + 1) fun i hi => h i (by simp [hi]))

namespace Solver
variable (K : Solver) (m : SeqCircuit)

theorem typed_all {e : K.Env} {st : Ports} {x : List (Reg K.F.V K.F.B)} {X : List (Reg BVal Bool)}
    (hd : List.Forall₂ K.declared st x) (h : List.Forall₂ (RegRel (K.RV e) (K.RB e)) x X) : List.Forall₂ InPort st X := by
  induction hd generalizing X with
  | nil => cases h; exact .nil
  | cons hx _ ih =>
    cases h with
    | cons hy h => exact .cons ((K.typed hy).1 hx) (ih h)

theorem cycle_typed {st : Ports} {ins : Nat → Ports} {k : Nat} {pp : Ports} (H : K.Induction m pp st ins k)
    (hp : PortsOk (st ++ ins 0)) {s i : List (Reg BVal Bool)} (hs : List.Forall₂ InPort st s)
    (hi : List.Forall₂ InPort (ins 0) i) : ∃ r, cycle concrete m s i = .ok r ∧ List.Forall₂ InPort st r.1 := by
  obtain ⟨e, h1, h2⟩ := K.values (iss := [ins 0]) (by simpa using hp) hs (.cons hi .nil)
  obtain ⟨r, hr, hd⟩ := H.next
  cases h2 with
  | cons h2 _ =>
    obtain ⟨w, hw, hk, -⟩ := RelP.ok_left ((K.sim e).cycle_rel m h1 h2) hr
    refine ⟨w, hw, ?_⟩
    exact K.typed_all hd hk


theorem unroll_typed {st : Ports} {ins : Nat → Ports} {k : Nat} {pp : Ports} (H : K.Induction m pp st ins k)
    (hp : PortsOk (st ++ ins 0)) : ∀ {is : List (List (Reg BVal Bool))} {s : List (Reg BVal Bool)},
    List.Forall₂ InPort st s → (∀ i ∈ is, List.Forall₂ InPort (ins 0) i) →
    ∃ r, unroll concrete m s is = .ok r ∧ List.Forall₂ InPort st r.1
  | [], s, hs, _ => ⟨(s, []), rfl, hs⟩
  | i :: is, s, hs, hi => by
    obtain ⟨r, hr, h1⟩ := K.cycle_typed m H hp hs (hi i (by simp))
    obtain ⟨r', hr', h2⟩ := unroll_typed H hp (is := is) h1 fun i h => hi i (by simp [h])
    refine ⟨(r'.1, r.2 :: r'.2), ?_, h2⟩
    simp only [unroll, hr, bind, Except.bind, hr']
    rfl

theorem start_typed {st : Ports} {ins : Nat → Ports} {k : Nat} {pp : Ports} (H : K.Induction m pp st ins k)
    (hp : PortsOk pp) {t : List (Reg BVal Bool)} (ht : List.Forall₂ InPort pp t) :
    ∃ s, start concrete m t = .ok s ∧ List.Forall₂ InPort st s := by
  obtain ⟨e, h1, -⟩ := K.values (iss := []) (by simpa using hp) ht .nil
  obtain ⟨r, hr, hd⟩ := H.first
  obtain ⟨w, hw, hk⟩ := RelP.ok_left ((K.sim e).start_rel m h1) hr
  exact ⟨w, hw, K.typed_all hd hk⟩

theorem holds_prefix {pp : Ports} {a b : List Ports} (h : K.Holds m pp (a ++ b)) : K.Holds m pp a := by
  obtain ⟨r, hr, hv⟩ := h
  obtain ⟨s, hs, hr⟩ := bind_ok hr
  rw [List.map_append] at hr
  obtain ⟨x, y, hx, hy, rfl⟩ := unroll_split K.F m hr
  refine ⟨x, ?_, fun e b hb => hv e b (by simp [hb])⟩
  unfold trace
  rw [hs]; exact hx

theorem portsOk_left {a b : Ports} (h : PortsOk (a ++ b)) : PortsOk a := by
  refine ⟨?_, fun q r n hq => h.2 q r n (by simp [hq])⟩
  have := h.1
  rw [List.map_append] at this
  exact (List.nodup_append.1 this).1

theorem induction_sound {pp st : Ports} {ins : Nat → Ports} {k : Nat} (H : K.Induction m pp st ins k)
    (hs : SamePorts ins) (hp : PortsOk (pp ++ ((List.range k).map ins).flatten))
    (hq : PortsOk (st ++ ((List.range (k + 1)).map ins).flatten)) {t : List (Reg BVal Bool)}
    (ht : List.Forall₂ InPort pp t) (is : List (List (Reg BVal Bool))) (hi : ∀ i ∈ is, List.Forall₂ InPort (ins 0) i) :
    ∃ r, trace concrete m t is = .ok r ∧ ∀ b ∈ r.2, b = true := by
  have hq0 : PortsOk (st ++ ins 0) := by
    have : (List.range (k + 1)).map ins = ins 0 :: (List.range' 1 k).map ins := by
      rw [List.range_eq_range', List.range'_succ]; rfl
    rw [this, List.flatten_cons, ← List.append_assoc] at hq
    exact portsOk_left hq
  obtain ⟨s, hst, hsty⟩ := K.start_typed m H (portsOk_left hp) ht
  have htr : ∀ is, trace concrete m t is = unroll concrete m s is := fun is => by
    unfold trace; rw [hst]; rfl
  suffices h : ∃ r, unroll concrete m s is = .ok r ∧ ∀ b ∈ r.2, b = true by
    obtain ⟨r, h1, h2⟩ := h
    exact ⟨r, (htr is).trans h1, h2⟩
  induction is using List.reverseRecOn with
  | nil => exact ⟨(s, []), rfl, by simp⟩
  | append_singleton is i ih =>
    obtain ⟨r, hr, hrt⟩ := ih fun i h => hi i (by simp [h])
    obtain ⟨r', hr', hty⟩ := K.unroll_typed m H hq0 hsty (is := is) fun i h => hi i (by simp [h])
    cases hr.symm.trans hr'
    obtain ⟨c, hc, -⟩ := K.cycle_typed m H hq0 hty (hi i (by simp))
    have hone : unroll concrete m r.1 [i] = .ok (c.1, [c.2]) := by
      simp only [unroll, hc, bind, Except.bind]; rfl
    have hall := unroll_join concrete m hr hone
    refine ⟨_, hall, ?_⟩
    suffices h : c.2 = true by
      intro b hb
      rcases List.mem_append.1 hb with hb | hb
      · exact hrt b hb
      · simp only [List.mem_singleton] at hb; rw [hb, h]
    by_cases hk : is.length < k
    · have hsplit : (List.range k).map ins = (List.range (is.length + 1)).map ins ++
          (List.range' (is.length + 1) (k - (is.length + 1))).map ins := by
        rw [← List.map_append]
        congr 1
        have := List.range'_append_1 (s := 0) (m := is.length + 1) (n := k - (is.length + 1))
        rw [Nat.zero_add] at this
        rw [List.range_eq_range', List.range_eq_range', this]
        congr 1; omega
      have hb := H.base
      rw [hsplit] at hb
      have hp' := hp
      rw [hsplit, List.flatten_append, ← List.append_assoc] at hp'
      obtain ⟨w, hw, hv⟩ := (K.verdict m (portsOk_left hp')).1 (K.holds_prefix m hb) t (is ++ [i]) ht (by
        have := inPorts_range hs 0 hi
        rw [← List.range_eq_range'] at this
        simpa using this)
      cases hall.symm.trans ((htr _).symm.trans hw)
      exact hv c.2 (by simp)
    · obtain ⟨pre, win, rfl, hlen⟩ : ∃ pre win, is = pre ++ win ∧ win.length = k :=
        ⟨is.take (is.length - k), is.drop (is.length - k), (List.take_append_drop _ _).symm, by
          rw [List.length_drop]; omega⟩
      obtain ⟨a, b, ha, hb, rfl⟩ := unroll_split concrete m hr
      obtain ⟨a', ha', haty⟩ := K.unroll_typed m H hq0 hsty (is := pre) fun i h => hi i (by simp [h])
      cases ha.symm.trans ha'
      obtain ⟨e, h1, h2⟩ := K.values (iss := (List.range (k + 1)).map ins) hq haty (is := win ++ [i]) (by
        have := inPorts_range hs 0 (is := win ++ [i]) fun j h => hi j (by
          simp only [List.mem_append, List.mem_singleton] at h ⊢
          rcases h with h | h
          · exact Or.inl (Or.inr h)
          · exact Or.inr h)
        rw [← List.range_eq_range'] at this
        simpa [hlen] using this)
      obtain ⟨x, hx, hstep⟩ := H.step
      have hx' : unroll K.F m (st.map K.inp) (((List.range (k + 1)).map ins).map (·.map K.inp)) = .ok x := by
        rw [List.map_map]; exact hx
      obtain ⟨w, hw, hrel⟩ := RelP.ok_left ((K.sim e).unroll_rel m h1 h2) hx'
      have hjoin := unroll_join concrete m hb hone
      cases hjoin.symm.trans hw
      have hbl : b.2.length = k := (unroll_length concrete m hb).trans hlen
      have hxl : x.2.length = k + 1 := by rw [hrel.2.length_eq]; simp [hbl]
      have hget : ∀ j (hj : j < x.2.length), K.RB e x.2[j] ((b.2 ++ [c.2])[j]'(by rw [List.length_append, hbl]; simp only [List.length_singleton]; omega)) :=
        fun j hj => hrel.2.get hj _
      have hlast := hstep e (fun j d hj hd => by
        obtain ⟨hj', rfl⟩ := List.getElem?_eq_some_iff.1 hd
        have := hget j hj'
        rw [List.getElem_append_left (by omega)] at this
        have ht : b.2[j] = true := hrt _ (by simp)
        rwa [ht] at this) x.2[k] (List.getElem?_eq_getElem (by omega))
      have := hget k (by omega)
      rw [List.getElem_append_right (by omega)] at this
      simp only [hbl, Nat.sub_self, List.getElem_cons_zero] at this
      exact K.func this hlast

theorem declared_all {e : K.Env} {st : Ports} {x : List (Reg K.F.V K.F.B)} {X : List (Reg BVal Bool)}
    (hd : List.Forall₂ InPort st X) (h : List.Forall₂ (RegRel (K.RV e) (K.RB e)) x X) : List.Forall₂ K.declared st x := by
  induction hd generalizing x with
  | nil => cases h; exact .nil
  | cons hx _ ih =>
    cases h with
    | cons hy h => exact .cons ((K.typed hy).2 hx) (ih h)

theorem back_ports (f : List Char → Bool) (g : List Char → (w : Nat) → BitVec w) (ps : Ports) :
    List.Forall₂ InPort ps (ps.map (readBack f g)) := reads_in (readBack_reads f g ps)

theorem forall₂_getElem? {α β : Type} {R : α → β → Prop} {l : List α} {l' : List β} (h : List.Forall₂ R l l') (j : Nat) :
    (∀ a, l[j]? = some a → ∃ b, l'[j]? = some b ∧ R a b) ∧ (∀ b, l'[j]? = some b → ∃ a, l[j]? = some a ∧ R a b) := by
  induction h generalizing j with
  | nil => simp
  | cons hx _ ih =>
    cases j with
    | zero => simpa using hx
    | succ j => simpa using ih j

theorem induction_exact {pp st : Ports} {ins : Nat → Ports} {k : Nat}
    (hp : PortsOk (pp ++ ((List.range k).map ins).flatten))
    (hq : PortsOk (st ++ ((List.range (k + 1)).map ins).flatten)) :
    K.Induction m pp st ins k ↔ SimInduction m pp st ins k := by
  have hq0 : PortsOk (st ++ ins 0) := by
    have : (List.range (k + 1)).map ins = ins 0 :: (List.range' 1 k).map ins := by
      rw [List.range_eq_range', List.range'_succ]; rfl
    rw [this, List.flatten_cons, ← List.append_assoc] at hq
    exact portsOk_left hq
  have hmm : ((List.range (k + 1)).map ins).map (·.map K.inp) = (List.range (k + 1)).map fun j => (ins j).map K.inp := by
    rw [List.map_map]; rfl
  constructor
  · intro H
    refine ⟨(K.verdict m hp).1 H.base, fun t ht => K.start_typed m H (portsOk_left hp) ht,
      fun s i hs hi => K.cycle_typed m H hq0 hs hi, fun s is hs hi => ?_⟩
    obtain ⟨e, h1, h2⟩ := K.values hq hs hi
    obtain ⟨r, hr, hv⟩ := H.step
    rw [← hmm] at hr
    obtain ⟨w, hw, hk⟩ := RelP.ok_left ((K.sim e).unroll_rel m h1 h2) hr
    refine ⟨w, hw, fun hj c hc => ?_⟩
    obtain ⟨b, hb, hbc⟩ := (forall₂_getElem? hk.2 k).2 c hc
    refine K.func hbc (hv e (fun j a hjk ha => ?_) b hb)
    obtain ⟨d, hd, had⟩ := (forall₂_getElem? hk.2 j).1 a ha
    exact hj j d hjk hd ▸ had
  · intro H
    have e0 := K.assign (fun _ => false) fun _ _ => 0
    refine ⟨(K.verdict m hp).2 H.base, ?_, ?_, ?_⟩
    · obtain ⟨h1, -⟩ := K.back (iss := []) (by simpa using portsOk_left hp) e0
      obtain ⟨w, hw, hd⟩ := H.first _ (back_ports (K.bool e0) (K.bv e0) pp)
      obtain ⟨r, hr, hk⟩ := RelP.ok_right ((K.sim e0).start_rel m h1) hw
      exact ⟨r, hr, K.declared_all hd hk⟩
    · obtain ⟨h1, h2⟩ := K.back (iss := [ins 0]) (by simpa using hq0) e0
      obtain ⟨w, hw, hd⟩ := H.next _ _ (back_ports (K.bool e0) (K.bv e0) st) (back_ports (K.bool e0) (K.bv e0) (ins 0))
      cases h2 with
      | cons h2 _ =>
        obtain ⟨r, hr, hk⟩ := RelP.ok_right ((K.sim e0).cycle_rel m h1 h2) hw
        exact ⟨r, hr, K.declared_all hd hk.1⟩
    · have at_ : ∀ e, ∃ r, unroll K.F m (st.map K.inp) ((List.range (k + 1)).map fun j => (ins j).map K.inp) = .ok r ∧
          ((∀ j b, j < k → r.2[j]? = some b → K.RB e b true) → ∀ b, r.2[k]? = some b → K.RB e b true) := by
        intro e
        obtain ⟨h1, h2⟩ := K.back hq e
        obtain ⟨w, hw, ho⟩ := H.step _ _ (back_ports (K.bool e) (K.bv e) st) (back_in (K.bool e) (K.bv e) _)
        obtain ⟨r, hr, hk⟩ := RelP.ok_right ((K.sim e).unroll_rel m h1 h2) hw
        rw [hmm] at hr
        refine ⟨r, hr, fun hj b hb => ?_⟩
        obtain ⟨c, hc, hbc⟩ := (forall₂_getElem? hk.2 k).1 b hb
        refine ho (fun j d hjk hd => ?_) c hc ▸ hbc
        obtain ⟨a, ha, had⟩ := (forall₂_getElem? hk.2 j).2 d hd
        exact K.func had (hj j a hjk ha)
      obtain ⟨r, hr, -⟩ := at_ e0
      refine ⟨r, hr, fun e => ?_⟩
      obtain ⟨r', hr', h⟩ := at_ e
      cases hr.symm.trans hr'
      exact h

end Solver

/-- pysmt. -/
def smtSolver (S : Smt.Simplifier) : Solver where
  F := smt S
  Env := Smt.Env
  inp := smtIn
  E := (· = ·)
  RV := SVec
  RB := Smt.DenBit
  bool e := e.bool
  bv e := e.bv
  assign f g := ⟨f, fun _ => 0, g⟩
  bool_assign _ _ := rfl
  bv_assign _ _ := rfl
  sim e := smt_sim e S
  func h h' := by
    have := h.symm.trans h'
    injection this with this
    injection this
  reads {e} _ _ h hp := reads_smt e.int h hp
  declared := smtDeclared
  typed {e q x X} h := by
    obtain ⟨q, p⟩ := q
    cases h with
    | @vec x y h =>
      obtain ⟨⟨h1, h2, b, h3, h4⟩, ⟨r', h5⟩, h6⟩ := h
      obtain ⟨K, n, v⟩ := y
      rw [h5] at h1
      dsimp only at h1 h2 h4
      have h1 : K = .root r' := h1
      subst h1 h2 h4
      cases p with
      | vec r n =>
        simp only [smtDeclared, h5]
        constructor
        · rintro ⟨h, rfl⟩
          cases h
          exact .vec (Int.natCast_nonneg _) (by exact_mod_cast b.isLt)
        · intro h
          cases h
          exact ⟨rfl, rfl⟩
      | bit => exact ⟨fun h => h.elim, fun h => by cases h⟩
    | @bit x y h =>
      cases p with
      | vec r n => exact ⟨fun h => h.elim, fun h => by cases h⟩
      | bit => exact ⟨fun _ => .bit, fun _ => trivial⟩

/-- z3. -/
def z3Solver : Solver where
  F := z3
  Env := Z3.Env
  inp := z3In
  E := ZErr
  RV := Z3.Den
  RB := Z3.DenBit
  bool e := e.bool
  bv e := e.bv
  assign f g := ⟨f, g⟩
  bool_assign _ _ := rfl
  bv_assign _ _ := rfl
  sim e := z3_sim e
  func h h' := h.symm.trans h'
  reads h hp := reads_z3 h hp
  declared := z3Declared
  typed {e q x X} h := by
    obtain ⟨q, p⟩ := q
    cases h with
    | @vec x y h =>
      obtain ⟨h1, h2, h3, d, h4, h5⟩ := h
      obtain ⟨K, n, v⟩ := y
      dsimp only at h1 h2 h5
      subst h1 h2 h5
      cases p with
      | vec r n =>
        simp only [z3Declared]
        constructor
        · rintro ⟨rfl, rfl⟩
          exact .vec (Int.natCast_nonneg _) (by exact_mod_cast (d e).isLt)
        · intro h
          cases h
          exact ⟨rfl, rfl⟩
      | bit => exact ⟨fun h => h.elim, fun h => by cases h⟩
    | @bit x y h =>
      cases p with
      | vec r n => exact ⟨fun h => h.elim, fun h => by cases h⟩
      | bit => exact ⟨fun _ => .bit, fun _ => trivial⟩

end HW.Circuit
