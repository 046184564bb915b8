import Verif.Props.BitVector
import Verif.Props.BitVectorShift
import Verif.Props.BitVectorArith
import Verif.Props.BitVectorStruct
import Verif.Props.Ite
import Verif.Props.Operators
import Verif.Props.Canonical
import Verif.Props.ClassHeap
import Verif.Props.Smt
import Verif.Props.SmtStruct
import Verif.Props.SmtInt
import Verif.Props.SmtIte
import Verif.Props.SmtBit
import Verif.Props.SmtCompat
import Verif.Props.SmtNames
import Verif.Props.SmtFp
import Verif.Props.FpSqrt
import Verif.Props.Z3
import Verif.Props.Z3Struct
import Verif.Props.Z3Ops
import Verif.Props.Z3Ite
import Verif.Props.Z3Names
import Verif.Props.Fp
import Verif.Props.FpRound
import Verif.Props.FpArith
import Verif.Props.FpCompare
import Verif.Props.FpRem
import Verif.Props.AdtType
import Verif.Props.AdtRebind
import Verif.Lemmas.Adt.SetSlice
import Verif.Props.AdtHeap
import Verif.Props.AdtEq
import Verif.Props.AdtDict
import Verif.Props.AdtEnum
import Verif.Props.AdtVisit
import Verif.Props.AdtClass
import Verif.Props.AdtHierarchy
import Verif.Props.AdtModCache
import Verif.Props.FrozenDict
import Verif.Props.AdtNames
import Verif.Props.SmtFpNames
import Verif.Props.FpClasses
import Verif.Props.FpRandom
import Verif.Props.SmtSerialize
import Verif.Props.Factory
import Verif.Model.Smt.Poly
import Verif.Props.SmtPoly
import Verif.Model.Adt.Modifier
import Verif.Props.AdtMakeModifier
import Verif.Model.New
import Verif.Props.New
import Verif.Model.TypedProperty
import Verif.Props.TypedProperty
import Verif.Lemmas.Fp.Construct
import Verif.Props.FpConstruct
import Verif.Model.Fp.Context
import Verif.Props.FpContext
import Verif.Model.Adt.Repr
import Verif.Lemmas.Adt.Repr
import Verif.Props.AdtRepr
import Verif.Model.Circuit
import Verif.Lemmas.Circuit
import Verif.Lemmas.CircuitFamilies
import Verif.Props.Circuit
import Verif.Model.CircuitHeap
import Verif.Lemmas.CircuitHeap
import Verif.Props.CircuitHeap
import Verif.Model.Dict
import Verif.Props.Dict
import Verif.Model.Warnings
import Verif.Props.Warnings
import Verif.Model.Fp.Warnings
import Verif.Props.FpWarnings
import Verif.Model.IntExpr
import Verif.Props.IntExpr
import Verif.Model.IntExprSym
import Verif.Props.IntExprSym
import Verif.Model.Derived
import Verif.Props.Derived
import Verif.Model.Adt.AllModifiers
import Verif.Props.AdtAllModifiers
import Verif.Model.DerivedHeap
import Verif.Props.DerivedHeap
import Verif.Model.Pack
import Verif.Props.Pack
import Verif.Model.PyProgram
import Verif.Lemmas.PyProgram
import Verif.Props.PyProgram
import Verif.Model.Sort
import Verif.Props.Sort
import Verif.Model.HeapProgram
import Verif.Lemmas.HeapProgram
import Verif.Props.HeapProgram
import Verif.Model.Smt.Derived
import Verif.Props.SmtDerived
import Verif.Model.Z3.Derived
import Verif.Props.Z3Derived
import Verif.Model.Smt.Formula
import Verif.Props.SmtFormula
import Verif.Model.Z3.Expr
import Verif.Props.Z3Expr
import Verif.Model.Smt.IntFormula
import Verif.Props.SmtIntFormula
import Verif.Model.Mixed
import Verif.Props.Mixed
import Verif.Model.Adt.Equal
import Verif.Lemmas.Adt.Equal
import Verif.Props.AdtEqual
import Verif.Model.PolyCircuit
import Verif.Props.PolyOperators
import Verif.Lemmas.PolyCircuit
import Verif.Props.PolyCircuit
import Verif.Model.Protocol
import Verif.Props.Protocol
import Verif.Spec.AdtRebind
import Verif.Lemmas.Adt.Rebind
import Verif.Props.AdtRebindModified
import Verif.Model.MixedIte
import Verif.Spec.MixedIte
import Verif.Props.MixedIte
import Verif.Model.SeqCircuit
import Verif.Spec.SeqCircuit
import Verif.Lemmas.SeqCircuit
import Verif.Props.SeqCircuit
import Verif.Model.Adt.HeapEnum
import Verif.Spec.AdtShare
import Verif.Lemmas.Adt.Share
import Verif.Lemmas.Adt.ShareEnum
import Verif.Props.AdtShare
import Verif.Model.Adt.Attrs
import Verif.Props.AdtAttrs
import Verif.Model.IfConv
import Verif.Props.IfConv
import Verif.Model.Adt.Source
import Verif.Lemmas.Adt.Source
import Verif.Props.AdtSource
import Verif.Model.Returns
import Verif.Props.Returns
import Verif.Model.Loops
import Verif.Props.Loops
import Verif.Model.Records
import Verif.Props.Records
import Verif.Model.Sequence
import Verif.Lemmas.Sequence
import Verif.Props.Sequence
import Verif.Model.Adt.Copy
import Verif.Spec.AdtCopy
import Verif.Lemmas.Adt.Copy
import Verif.Props.AdtCopy
import Verif.Model.Adt.Keys
import Verif.Spec.AdtKeys
import Verif.Lemmas.Adt.Keys
import Verif.Props.AdtKeys
import Verif.Model.C3
import Verif.Lemmas.C3
import Verif.Lemmas.C3Heap
import Verif.Props.Mro
import Verif.Model.Adt.Mro
import Verif.Lemmas.C3Mod
import Verif.Lemmas.Adt.Mro
import Verif.Props.AdtMro
import Verif.Props.AdtBindMro
import Verif.Props.Gates
import Verif.Props.Rewrites
import Verif.Props.Wiring
import Verif.Props.Narrow
import Verif.Props.Parity
import Verif.Props.Lanes
import Verif.Props.Miter
import Verif.Props.Monotone
import Verif.Props.Dual
