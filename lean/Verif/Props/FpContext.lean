import Verif.Model.Fp.Context
import Verif.Props.FpArith

/-! # Floating point: the methods and gmpy2's current context (C121) -/

namespace HW
open Fp

namespace Fp

/-- The objects in a call are objects of their classes. -/
def FArg.Valid : FArg → Prop
  | .fp g v => g.Ok ∧ 2 ≤ g.eb ∧ g.Object v
  | _ => True

def Call.Valid : Call → Prop
  | .new f a => f.Ok ∧ 2 ≤ f.eb ∧ a.Valid
  | .fromBV f _ => f.Ok ∧ 2 ≤ f.eb
  | .random f _ _ _ => f.Ok ∧ 2 ≤ f.eb
  | .unary f _ v => f.Ok ∧ 2 ≤ f.eb ∧ f.Object v
  | .binary f _ v b => f.Ok ∧ 2 ≤ f.eb ∧ f.Object v ∧ b.Valid
  | .fma f v b d => f.Ok ∧ 2 ≤ f.eb ∧ f.Object v ∧ b.Valid ∧ d.Valid
  | .compare f _ v b => f.Ok ∧ 2 ≤ f.eb ∧ f.Object v ∧ b.Valid
  | .test f _ v => f.Ok ∧ 2 ≤ f.eb ∧ f.Object v
  | .normal f v => f.Ok ∧ 2 ≤ f.eb ∧ f.Object v
  | .subnormal f v => f.Ok ∧ 2 ≤ f.eb ∧ f.Object v
  | .asBV f v => f.Ok ∧ 2 ≤ f.eb ∧ f.Object v
  | .toUBV f v _ => f.Ok ∧ 2 ≤ f.eb ∧ f.Object v
  | .toSBV f v _ => f.Ok ∧ 2 ≤ f.eb ∧ f.Object v
  | .float f v => f.Ok ∧ 2 ≤ f.eb ∧ f.Object v

/-- In contexts with the settings `c` the computation gives `p` and keeps the settings. -/
def Agrees {α : Type} (m : G α) (c : Ctx) (p : PyM α) : Prop := ∀ s : GCtx, s.c = c → (m s).1 = p ∧ (m s).2.c = c

section
variable {α β : Type} {c : Ctx} {fx : GCtx → Nat} {f : Fmt}

theorem agrees_lift (p : PyM α) : Agrees (G.lift p) c p := fun _ h => ⟨rfl, h⟩
theorem agrees_pure (a : α) : Agrees (pure a) c (.ok a) := fun _ h => ⟨rfl, h⟩
theorem agrees_throw (e : PyErr) : Agrees (G.throw e : G α) c (.error e) := fun _ h => ⟨rfl, h⟩
theorem agrees_prim (op : Ctx → PyM α) : Agrees (G.prim fx op) c (op c) := fun s h => by
  subst h; exact ⟨rfl, rfl⟩

theorem agrees_bind {m : G α} {p : PyM α} {k : α → G β} {q : α → PyM β} (h : Agrees m c p)
    (hk : ∀ a, p = .ok a → Agrees (k a) c (q a)) : Agrees (m >>= k) c (p >>= q) := by
  intro s hs
  obtain ⟨h1, h2⟩ := h s hs
  change (G.bind m k s).1 = _ ∧ (G.bind m k s).2.c = _
  unfold G.bind
  generalize m s = r at h1 h2
  obtain ⟨r, s'⟩ := r
  simp only at h1 h2
  subst h1
  cases r with
  | error e => exact ⟨rfl, h2⟩
  | ok a => exact hk a rfl s' h2

theorem setContext_eq {m : G α} {p : PyM α} (h : Agrees m f.ctx p) (s : GCtx) : f.setContext m s = (p, s) := by
  have := (h f.gctx rfl).1
  simp only [Fmt.setContext, G.localContext, this]

theorem agrees_set {m : G α} {p : PyM α} (h : Agrees m f.ctx p) : Agrees (f.setContext m) c p := fun s hs => by
  rw [setContext_eq h]; exact ⟨rfl, hs⟩

theorem agrees_ite {b : Prop} [Decidable b] {m m' : G α} {p p' : PyM α} (h : Agrees m c p) (h' : Agrees m' c p') :
    Agrees (if b then m else m') c (if b then p else p') := by
  split <;> assumption

theorem Agrees.congr {m : G α} {p p' : PyM α} (h : Agrees m c p) (e : p = p') : Agrees m c p' := e ▸ h

/-- A computation inside `set_context`, outermost. -/
def Closed (m : G α) (p : PyM α) : Prop := ∀ s, m s = (p, s)

theorem Closed.agrees {m : G α} {p : PyM α} (h : Closed m p) : Agrees m c p := fun s hs => by rw [h s]; exact ⟨rfl, hs⟩

theorem Closed.bind {m : G α} {p : PyM α} {k : α → G β} {q : α → PyM β} (h : Closed m p)
    (hk : ∀ a, p = .ok a → Closed (k a) (q a)) : Closed (m >>= k) (p >>= q) := by
  intro s
  change G.bind m k s = _
  unfold G.bind
  rw [h s]
  cases p with
  | error e => rfl
  | ok a => exact hk a rfl s

theorem closed_pure (a : α) : Closed (pure a) (.ok a) := fun _ => rfl
theorem closed_throw (e : PyErr) : Closed (G.throw e : G α) (.error e) := fun _ => rfl

theorem init_closed (a : FArg) : Closed (f.initG fx a) (f.mk' a) := by
  apply setContext_eq
  cases a with
  | fp g v => exact (agrees_bind (agrees_prim _) fun _ _ => agrees_pure _).congr rfl
  | mpfr v => exact (agrees_bind (agrees_prim _) fun _ _ => agrees_pure _).congr rfl
  | num x z => exact (agrees_bind (agrees_prim _) fun _ _ => agrees_pure _).congr rfl
  | text x z => exact (agrees_bind (agrees_prim _) fun _ _ => agrees_pure _).congr rfl
  | ratio x =>
    cases x with
    | none => exact (agrees_bind (agrees_throw _) fun _ _ => agrees_pure (f.finish _)).congr rfl
    | some x => exact (agrees_bind (agrees_prim _) fun _ _ => agrees_pure _).congr rfl
  | badText => exact (agrees_bind (agrees_throw _) fun _ _ => agrees_pure (f.finish _)).congr rfl
  | bad => exact (agrees_bind (agrees_throw _) fun _ _ => agrees_pure (f.finish _)).congr rfl
  | foreign x =>
    refine (agrees_bind (agrees_lift _) fun _ _ => agrees_bind (agrees_prim _) fun _ _ => agrees_pure _).congr ?_
    simp only [Fmt.mk']
    cases pyFloat x <;> rfl
  | vec b =>
    refine (agrees_bind (agrees_lift _) fun _ _ => agrees_bind (agrees_prim _) fun _ _ => agrees_pure _).congr ?_
    simp only [Fmt.mk']
    cases b.toInt <;> rfl

theorem coerce_closed (a : FArg) : Closed (f.coerceG fx a) (f.coerce a) := by
  cases a with
  | fp g v =>
    simp only [Fmt.coerceG, Fmt.coerce]
    split
    · exact closed_throw _
    · exact closed_pure _
  | mpfr v => exact init_closed (.mpfr v)
  | num x z => exact init_closed (.num x z)
  | text x z => exact init_closed (.text x z)
  | ratio x => exact init_closed (.ratio x)
  | badText => exact init_closed (fx := fx) .badText
  | foreign x => exact init_closed (.foreign x)
  | vec b => exact init_closed (.vec b)
  | bad => exact init_closed (fx := fx) .bad

/-- What `_coerce` returns is an object of the class. -/
theorem coerce_object (hb : FArg) {w : Mpfr} (hv : hb.Valid) (h : f.coerce hb = .ok w) : f.Object w := by
  cases hb with
  | fp g v =>
    simp only [Fmt.coerce] at h
    split at h
    · cases h
    · rename_i hg
      injection h with h; subst h
      rw [not_not] at hg; subst hg
      exact hv.2.2
  | mpfr v => injection h with h; subst h; exact .mpfr v
  | num x z => injection h with h; subst h; exact .number x z
  | text x z => injection h with h; subst h; exact .number x z
  | ratio x =>
    cases x with
    | none => cases h
    | some x => injection h with h; subst h; exact .number x false
  | badText => cases h
  | bad => cases h
  | foreign x =>
    simp only [Fmt.coerce, Fmt.mk'] at h
    cases hp : pyFloat x with
    | error e => rw [hp] at h; cases h
    | ok v => rw [hp] at h; injection h with h; subst h; exact .number _ _
  | vec b =>
    simp only [Fmt.coerce, Fmt.mk'] at h
    cases hp : b.toInt with
    | error e => rw [hp] at h; cases h
    | ok v => rw [hp] at h; injection h with h; subst h; exact .number _ _

theorem map_closed {op : Ctx → Mpfr → Mpfr} {v : Mpfr} : Closed (f.mapG fx op v) (.ok (f.ofMpfr (op f.ctx v))) :=
  setContext_eq ((agrees_bind (agrees_prim _) fun _ _ => (init_closed _).agrees).congr rfl)

theorem cast_closed {op : Ctx → Mpfr → Mpfr → Mpfr} {v : Mpfr} {b : FArg} :
    Closed (f.castG fx op v b) (do return f.ofMpfr (op f.ctx v (← f.coerce b))) := by
  apply setContext_eq
  refine (agrees_bind (coerce_closed b).agrees fun _ _ =>
    agrees_bind (agrees_prim _) fun _ _ => (init_closed _).agrees).congr ?_
  cases f.coerce b <;> rfl

theorem compare_closed {op : Mpfr → Mpfr → Bool} {v : Mpfr} {b : FArg} :
    Closed (f.compareG fx op v b) (do return op v (← f.coerce b)) := by
  apply setContext_eq
  refine (agrees_bind (coerce_closed b).agrees fun _ _ => agrees_prim _).congr ?_
  cases f.coerce b <;> rfl

theorem fma_closed {o : Bool} {v : Mpfr} {b d : FArg} : Closed (f.fmaG fx o v b d) (f.fpFma o v b d) := by
  apply setContext_eq
  refine (agrees_bind (coerce_closed b).agrees fun _ _ => agrees_bind (coerce_closed d).agrees fun _ _ =>
    agrees_bind (agrees_prim _) fun _ _ => (init_closed _).agrees).congr ?_
  unfold Fmt.fpFma
  cases f.coerce b <;> [rfl; (cases f.coerce d <;> rfl)]

theorem test_closed {t : Mpfr → Bool} {v : Mpfr} : Closed (f.testG fx t v) (.ok (t v)) :=
  setContext_eq (agrees_prim _)

theorem asBV_closed {v : Mpfr} : Closed (f.asBVG fx v) (f.asBV v) :=
  setContext_eq ((agrees_bind test_closed.agrees fun _ _ => agrees_bind test_closed.agrees fun _ _ =>
    agrees_bind test_closed.agrees fun _ _ => agrees_lift _).congr rfl)

theorem subnormal_closed {v : Mpfr} : Closed (f.isSubnormalG fx v) (f.isSubnormal v) := by
  apply setContext_eq
  refine (agrees_bind asBV_closed.agrees fun _ _ => agrees_bind (agrees_lift _) fun _ _ =>
    agrees_bind (agrees_lift _) fun _ _ => agrees_bind test_closed.agrees fun _ _ =>
      agrees_ite (agrees_ite (agrees_pure _) (agrees_throw _)) (agrees_pure _)).congr ?_
  rfl

theorem normal_closed {v : Mpfr} : Closed (f.isNormalG fx v) (f.isNormal v) := by
  apply setContext_eq
  refine (agrees_bind test_closed.agrees fun _ _ => agrees_bind test_closed.agrees fun _ _ =>
    agrees_bind subnormal_closed.agrees fun _ _ => agrees_bind test_closed.agrees fun _ _ => agrees_pure _).congr ?_
  rfl

theorem fromBV_closed {b : BVal} : Closed (f.fromBVG fx b) (f.fromBV b) := by
  apply setContext_eq
  refine (agrees_ite (agrees_throw _) (agrees_bind (agrees_lift _) fun _ _ => agrees_bind (agrees_lift _) fun _ _ =>
    agrees_bind (agrees_lift _) fun _ _ => agrees_ite (agrees_throw _) (agrees_bind (agrees_lift _) fun _ _ =>
      agrees_ite
        (agrees_bind (agrees_lift _) fun _ _ => agrees_ite
          (agrees_ite
            (agrees_bind (agrees_lift _) fun _ _ => agrees_ite (init_closed _).agrees (init_closed _).agrees)
            (agrees_bind (agrees_lift _) fun _ _ =>
              agrees_bind (agrees_prim _) fun _ _ => (init_closed _).agrees))
          (agrees_bind (agrees_lift _) fun _ _ => agrees_ite (init_closed _).agrees (init_closed _).agrees))
        (agrees_bind (agrees_lift _) fun _ _ => agrees_ite
          (agrees_bind (agrees_lift _) fun _ _ => agrees_ite
            (agrees_bind (agrees_lift _) fun _ _ => agrees_ite (init_closed _).agrees (init_closed _).agrees)
            (init_closed _).agrees)
          (agrees_bind (agrees_lift _) fun _ _ => agrees_bind (agrees_lift _) fun _ _ =>
            agrees_bind (agrees_lift _) fun _ _ =>
              agrees_bind (agrees_prim _) fun _ _ => (init_closed _).agrees))))).congr ?_
  simp only [Fmt.mk', ofRat_zero]
  rfl

theorem toUBV_closed {v : Mpfr} {n : Nat} : Closed (f.toUBVG fx v n) (toUBV v n) :=
  setContext_eq ((agrees_bind (agrees_prim _) fun _ _ => agrees_lift _).congr rfl)

theorem toSBV_closed {v : Mpfr} {n : Nat} : Closed (f.toSBVG fx v n) (toSBV v n) :=
  setContext_eq ((agrees_bind (agrees_prim _) fun _ _ => agrees_lift _).congr rfl)

theorem toFloat_closed {v : Mpfr} : Closed (f.toFloatG fx v) (.ok (f.toFloat v)) :=
  setContext_eq ((agrees_prim _).congr rfl)

theorem random_closed {o neg : Bool} {u : ℚ} {exp : Int} : Closed (f.randomG fx o neg u exp) (.ok (f.random o neg u exp)) :=
  setContext_eq ((agrees_bind (agrees_prim _) fun _ _ => agrees_bind (agrees_prim _) fun _ _ =>
    agrees_bind (agrees_prim _) fun _ _ => agrees_bind (agrees_prim _) fun _ _ => agrees_bind (agrees_prim _) fun _ _ =>
    agrees_bind (agrees_prim _) fun _ _ => (init_closed _).agrees).congr rfl)

/-- `gmpy2.mpfr` does not change a number of the context. -/
theorem rep_ctx {v : Mpfr} (h : Rep f v) : f.ctx.ofMpfr v = v := by
  cases h with
  | nan s hi => rfl
  | inf s => rfl
  | zero s => rfl
  | fin s m e hn => exact ofRat_exact hn s s

theorem rep_minnum {v w : Mpfr} (o : Bool) (hv : Rep f v) (hw : Rep f w) : Rep f (v.minnum o w) ∧ Rep f (v.maxnum o w) := by
  cases hv with
  | nan s hi =>
    cases hw with
    | nan t _ => exact ⟨.nan o hi, .nan o hi⟩
    | inf t => exact ⟨.inf t, .inf t⟩
    | zero t => exact ⟨.zero t, .zero t⟩
    | fin t m e hn => exact ⟨.fin t m e hn, .fin t m e hn⟩
  | inf s =>
    cases hw with
    | nan t _ => exact ⟨.inf s, .inf s⟩
    | inf t => constructor <;> simp only [Mpfr.minnum, Mpfr.maxnum] <;> split <;> exact .inf _
    | zero t => constructor <;> simp only [Mpfr.minnum, Mpfr.maxnum] <;> split <;> constructor
    | fin t m e hn =>
      constructor <;> simp only [Mpfr.minnum, Mpfr.maxnum] <;> split <;> first | exact .inf _ | exact .fin t m e hn
  | zero s =>
    cases hw with
    | nan t _ => exact ⟨.zero s, .zero s⟩
    | inf t => constructor <;> simp only [Mpfr.minnum, Mpfr.maxnum] <;> split <;> constructor
    | zero t => exact ⟨.zero _, .zero _⟩
    | fin t m e hn =>
      constructor <;> simp only [Mpfr.minnum, Mpfr.maxnum] <;> split <;> first | exact .zero _ | exact .fin t m e hn
  | fin s m e hn =>
    cases hw with
    | nan t _ => exact ⟨.fin s m e hn, .fin s m e hn⟩
    | inf t => constructor <;> simp only [Mpfr.minnum, Mpfr.maxnum] <;> split <;> first | exact .inf _ | exact .fin s m e hn
    | zero t => constructor <;> simp only [Mpfr.minnum, Mpfr.maxnum] <;> split <;> first | exact .zero _ | exact .fin s m e hn
    | fin t m' e' hn' =>
      constructor <;> simp only [Mpfr.minnum, Mpfr.maxnum] <;> split <;> first | exact .fin s m e hn | exact .fin t m' e' hn'

end

/-- The contexts the program itself puts in place, step by step. -/
def contexts : List Step → GCtx → List GCtx
  | [], _ => []
  | .call _ :: l, s => s :: contexts l s
  | .set s' :: l, _ => s' :: contexts l s'

/-- The calls of a program. -/
def calls : List Step → List Call
  | [] => []
  | .call c :: l => c :: calls l
  | .set _ :: l => calls l
end Fp

/-! ## C121 -/

/-- A method call leaves gmpy2's current context, flags included, as it was, whether it returns or raises, and its
answer does not depend on it. -/
theorem C121_call (fx : GCtx → Nat) (o : Bool) {c : Call} (hc : c.Valid) (s : GCtx) :
    c.exec fx o s = (c.result o, s) := by
  revert s
  change Closed (c.exec fx o) (c.result o)
  cases c with
  | new f a => exact (init_closed a).bind fun _ _ => closed_pure _
  | fromBV f b => exact fromBV_closed.bind fun _ _ => closed_pure _
  | random f neg u exp => exact random_closed.bind fun _ _ => closed_pure _
  | fma f v b d => exact fma_closed.bind fun _ _ => closed_pure _
  | test f t v => exact test_closed.bind fun _ _ => closed_pure _
  | normal f v => exact normal_closed.bind fun _ _ => closed_pure _
  | subnormal f v => exact subnormal_closed.bind fun _ _ => closed_pure _
  | asBV f v => exact asBV_closed.bind fun _ _ => closed_pure _
  | toUBV f v n => exact toUBV_closed.bind fun _ _ => closed_pure _
  | toSBV f v n => exact toSBV_closed.bind fun _ _ => closed_pure _
  | float f v => exact toFloat_closed.bind fun _ _ => closed_pure _
  | unary f op v =>
    have h := map_closed (fx := fx) (f := f) (op := op.op o) (v := v)
    have hr := object_rep hc.1 hc.2.1 hc.2.2
    have e : Call.result o (.unary f op v) = (do return Answer.num (← (.ok (f.ofMpfr (op.op o f.ctx v)) : PyM Mpfr))) := by
      cases op with
      | abs =>
        simp only [Call.result, Call1.op, Fmt.fpAbs]
        split
        · rfl
        · rw [rep_ctx (rep_neg hr)]; rfl
      | neg => simp only [Call.result, Call1.op, Fmt.fpNeg, rep_ctx (rep_neg hr)]; rfl
      | sqrt => rfl
      | rint => rfl
    rw [e]
    exact h.bind fun _ _ => closed_pure _
  | binary f op v b =>
    have h := cast_closed (fx := fx) (f := f) (op := op.op o) (v := v) (b := b)
    have hr := object_rep hc.1 hc.2.1 hc.2.2.1
    have e : Call.result o (.binary f op v b) =
        (do return Answer.num (← (do return f.ofMpfr (op.op o f.ctx v (← f.coerce b)) : PyM Mpfr))) := by
      cases hb : f.coerce b with
      | error e => cases op <;> simp only [Call.result, Fmt.fpAdd, Fmt.fpSub, Fmt.fpMul, Fmt.fpDiv, Fmt.fpRem, Fmt.fpMin,
          Fmt.fpMax, hb] <;> rfl
      | ok w =>
        have hw := object_rep hc.1 hc.2.1 (coerce_object b hc.2.2.2 hb)
        cases op <;> simp only [Call.result, Call2.op, Fmt.fpAdd, Fmt.fpSub, Fmt.fpMul, Fmt.fpDiv, Fmt.fpRem, Fmt.fpMin,
          Fmt.fpMax, hb, bind, Except.bind, rep_ctx (rep_minnum o hr hw).1, rep_ctx (rep_minnum o hr hw).2]
    rw [e]
    exact h.bind fun _ _ => closed_pure _
  | compare f op v b =>
    have h := compare_closed (fx := fx) (f := f) (op := op.op) (v := v) (b := b)
    have e : Call.result o (.compare f op v b) = (do return Answer.bit (← (do return op.op v (← f.coerce b) : PyM Bool))) := by
      cases hb : f.coerce b <;> cases op <;>
        simp only [Call.result, Fmt.fpLeq, Fmt.fpLt, Fmt.fpGeq, Fmt.fpGt, Fmt.fpEq, Fmt.fpNe, hb] <;> rfl
    rw [e]
    exact h.bind fun _ _ => closed_pure _

/-- A program that sets gmpy2's context as it likes gets from every method the same answer, and finds its own
context after every call. -/
theorem C121_program (fx : GCtx → Nat) (o : Bool) {l : List Step} (hl : ∀ c ∈ calls l, c.Valid) (s : GCtx) :
    runSteps fx o l s = ((calls l).map (Call.result o), contexts l s) := by
  induction l generalizing s with
  | nil => rfl
  | cons t l ih =>
    cases t with
    | call c =>
      simp only [runSteps, C121_call fx o (hl c (by simp [calls])) s, calls, contexts, List.map_cons,
        ih (fun c' h => hl c' (by simp [calls, h])) s]
    | set s' =>
      simp only [runSteps, calls, contexts, ih (fun c' h => hl c' (by simpa [calls] using h)) s']

/-- Without `set_context` this fails: `+` itself depends on the current context. -/
theorem C121_undecorated : ∃ (s s' : GCtx) (v w : Mpfr), (G.prim (fun _ => 0) (fun c => (.ok (c.add false v w) : PyM Mpfr)) s).1 ≠
    (G.prim (fun _ => 0) (fun c => .ok (c.add false v w)) s').1 := by
  refine ⟨⟨⟨53, -1073, 1024, .toNearest, true⟩, 0⟩, ⟨⟨53, -1073, 1024, .down, true⟩, 0⟩, .zero false, .zero true, ?_⟩
  simp [G.prim, Ctx.add, Mpfr.toRat, Ctx.ofRat, Ctx.zeroSign, Mpfr.isSigned]

example : (Call.binary half .add (half.ofRat 1 false) (.text (1 / 3) false)).Valid :=
  ⟨by decide, by decide, .number _ _, trivial⟩
example (fx : GCtx → Nat) (s : GCtx) : (Call.binary half .add (half.ofRat 1 false) .badText).exec fx false s =
    (.error .valueError, s) :=
  C121_call fx false (c := .binary half .add (half.ofRat 1 false) .badText) ⟨by decide, by decide, .number _ _, trivial⟩ s

end HW
