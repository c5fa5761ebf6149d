import Verif.Acos.Model
import Verif.Acos.Spec
import Verif.Acos.Theorems
import Verif.Alloc.Model
import Verif.Alloc.Spec
import Verif.Alloc.Theorems
import Verif.Arr.Model
import Verif.Arr.Spec
import Verif.Arr.Theorems
import Verif.Atan.Lemmas
import Verif.Atan.Model
import Verif.Atan.Spec
import Verif.Atan.Theorems
import Verif.Axf.Model
import Verif.Axf.Spec
import Verif.Axf.Theorems
import Verif.BB.Accept
import Verif.BB.Gen
import Verif.BB.Lemmas
import Verif.BB.Model
import Verif.BB.Spec
import Verif.BB.Theorems
import Verif.Backend.Model
import Verif.Backend.Spec
import Verif.Backend.Theorems
import Verif.Bfloat.Model
import Verif.Bfloat.Spec
import Verif.Bfloat.Theorems
import Verif.Bipart.Model
import Verif.Bipart.Spec
import Verif.Bipart.Theorems
import Verif.Blocks.Bounds
import Verif.Blocks.Dekker
import Verif.Blocks.Exact
import Verif.Blocks.Exist
import Verif.Blocks.FastSum
import Verif.Blocks.Lemmas
import Verif.Blocks.Lift
import Verif.Blocks.LimbModel
import Verif.Blocks.LimbSpec
import Verif.Blocks.Limbs
import Verif.Blocks.Model
import Verif.Blocks.More
import Verif.Blocks.Spec
import Verif.Blocks.Three
import Verif.Blocks.ThreeModel
import Verif.Blocks.ThreeProds
import Verif.Blocks.ThreeSums
import Verif.Blocks.ThreeWrong
import Verif.CFG.Dom
import Verif.CFG.Generated
import Verif.CFG.Idom
import Verif.CFG.Model
import Verif.CFG.Simplify
import Verif.CFG.Spec
import Verif.CGen.Expr
import Verif.CGen.Lemmas
import Verif.CGen.Model
import Verif.CGen.Once
import Verif.CGen.Sim
import Verif.CGen.Spec
import Verif.CGen.StmtSim
import Verif.CGen.Theorems
import Verif.Cbrt.Lemmas
import Verif.Cbrt.Model
import Verif.Cbrt.Spec
import Verif.Cbrt.Theorems
import Verif.Check.Error
import Verif.Check.ErrorModel
import Verif.Check.Lemmas
import Verif.Check.Model
import Verif.Check.Run
import Verif.Check.RunModel
import Verif.Check.Spec
import Verif.Check.Theorems
import Verif.ChkPass.Model
import Verif.ChkPass.Spec
import Verif.ChkPass.Theorems
import Verif.Comp.Model
import Verif.Comp.Spec
import Verif.Comp.Theorems
import Verif.Crit.Model
import Verif.Crit.Spec
import Verif.Crit.Theorems
import Verif.Disp.Model
import Verif.Disp.Spec
import Verif.Disp.Theorems
import Verif.Elem.Div
import Verif.Elem.DivLemmas
import Verif.Elem.DivModel
import Verif.Elem.DivThms
import Verif.Elem.Exp
import Verif.Elem.Exp2
import Verif.Elem.Exp2Model
import Verif.Elem.Exp2Red
import Verif.Elem.Exp2Thms
import Verif.Elem.ExpLemmas
import Verif.Elem.ExpModel
import Verif.Elem.ExpPoly
import Verif.Elem.ExpRed
import Verif.Elem.ExpThms
import Verif.Elem.Faith
import Verif.Elem.Fp
import Verif.Elem.FpLemmas
import Verif.Elem.Near
import Verif.Elem.PowModel
import Verif.Elem.PowSpec
import Verif.Elem.PowThms
import Verif.Elem.PowWrong
import Verif.Elem.Rel
import Verif.Elem.Spec
import Verif.Elem.Sqrt
import Verif.Elem.SqrtCtx
import Verif.Elem.SqrtFaith
import Verif.Elem.SqrtFloat
import Verif.Elem.SqrtH
import Verif.Elem.SqrtHf
import Verif.Elem.SqrtInt
import Verif.Elem.SqrtModel
import Verif.Elem.SqrtNR
import Verif.Elem.SqrtThms
import Verif.Elem.SqrtWrong
import Verif.Entity.Model
import Verif.Entity.Spec
import Verif.Entity.Theorems
import Verif.ErrEval.Model
import Verif.ErrEval.Spec
import Verif.ErrEval.Theorems
import Verif.Exc.Model
import Verif.Exc.Spec
import Verif.Exc.Theorems
import Verif.Exp2i.Model
import Verif.Exp2i.Spec
import Verif.Exp2i.Theorems
import Verif.Extern.Model
import Verif.Extern.Spec
import Verif.Extern.Theorems
import Verif.FastTrig.Lemmas
import Verif.FastTrig.Model
import Verif.FastTrig.Spec
import Verif.FastTrig.Theorems
import Verif.FctExpr.Lemmas
import Verif.FctExpr.Model
import Verif.FctExpr.Spec
import Verif.FctExpr.Theorems
import Verif.FixC.Model
import Verif.FixC.Spec
import Verif.FixC.Theorems
import Verif.Fixed.Lemmas
import Verif.Fixed.Model
import Verif.Fixed.Spec
import Verif.Fixed.Theorems
import Verif.Float.Lemmas
import Verif.Float.Model
import Verif.Float.Spec
import Verif.Float.Theorems
import Verif.Fn.Remquo
import Verif.Fn.RemquoLemmas
import Verif.Fn.RemquoModel
import Verif.Fn.RemquoSpec
import Verif.FnGroup.Model
import Verif.FnGroup.Spec
import Verif.FnGroup.Theorems
import Verif.FpHw.Adder
import Verif.FpHw.Fma
import Verif.FpHw.FmaModel
import Verif.FpHw.Lemmas
import Verif.FpHw.Model
import Verif.FpHw.Spec
import Verif.Fuse.Model
import Verif.Fuse.Spec
import Verif.Fuse.Theorems
import Verif.Fuse.Tree
import Verif.Gappa.Lemmas
import Verif.Gappa.Model
import Verif.Gappa.Sim
import Verif.Gappa.Spec
import Verif.Gappa.Theorems
import Verif.HW.Adder
import Verif.HW.Deq
import Verif.HW.Div
import Verif.HW.Heap
import Verif.HW.Lza
import Verif.HW.Lzc
import Verif.HW.Mult
import Verif.HW.Pipeline
import Verif.HW.Spec
import Verif.HW.Trunc
import Verif.Hyper.Model
import Verif.Hyper.Spec
import Verif.Hyper.Theorems
import Verif.Interval.Lemmas
import Verif.Interval.Model
import Verif.Interval.Spec
import Verif.Interval.Theorems
import Verif.Kulisch.Model
import Verif.Kulisch.Spec
import Verif.Kulisch.Theorems
import Verif.Legal.Bits
import Verif.Legal.Eval
import Verif.Legal.Lemmas
import Verif.Legal.Model
import Verif.Legal.Placeholder
import Verif.Legal.Spec
import Verif.Legal.Theorems
import Verif.Lin.Lemmas
import Verif.Lin.Model
import Verif.Lin.Sim
import Verif.Lin.Spec
import Verif.Lin.Theorems
import Verif.Llvm.Model
import Verif.Llvm.Spec
import Verif.Llvm.Theorems
import Verif.LlvmGen.Lemmas
import Verif.LlvmGen.Model
import Verif.LlvmGen.Sim
import Verif.LlvmGen.Spec
import Verif.LlvmGen.Theorems
import Verif.Log.Core
import Verif.Log.Lemmas
import Verif.Log.Main
import Verif.Log.Model
import Verif.Log.Spec
import Verif.Log.Theorems
import Verif.LogFx.Model
import Verif.LogFx.Spec
import Verif.LogFx.Theorems
import Verif.LogRep.Model
import Verif.LogRep.Spec
import Verif.LogRep.Theorems
import Verif.Logic.Model
import Verif.Logic.Spec
import Verif.Logic.Theorems
import Verif.Machine.Collapse
import Verif.Machine.Fallback
import Verif.Machine.Model
import Verif.Machine.Spec
import Verif.Mask.Model
import Verif.Mask.Spec
import Verif.Mask.Theorems
import Verif.Mll.Model
import Verif.Mll.Spec
import Verif.Mll.Theorems
import Verif.Mprec.Lemmas
import Verif.Mprec.Model
import Verif.Mprec.Spec
import Verif.Mprec.Theorems
import Verif.Names.Lemmas
import Verif.Names.Model
import Verif.Names.Spec
import Verif.Names.Theorems
import Verif.Passes.Model
import Verif.Passes.Spec
import Verif.Passes.Theorems
import Verif.Piecewise.Model
import Verif.Piecewise.Spec
import Verif.Piecewise.Theorems
import Verif.Poly.Model
import Verif.Poly.Spec
import Verif.Poly.Theorems
import Verif.Promo.Model
import Verif.Promo.Spec
import Verif.Promo.Theorems
import Verif.Range.Model
import Verif.Range.Spec
import Verif.Range.Theorems
import Verif.Recip.Chain
import Verif.Recip.Lemmas
import Verif.Recip.Model
import Verif.Recip.Spec
import Verif.Recip.Theorems
import Verif.Rem.Core
import Verif.Rem.Fmod
import Verif.Rem.FmodLemmas
import Verif.Rem.FmodModel
import Verif.Rem.FmodThms
import Verif.Rem.Half
import Verif.Rem.Lemmas
import Verif.Rem.Loops
import Verif.Rem.Model
import Verif.Rem.Scale
import Verif.Rem.Spec
import Verif.Rem.Theorems
import Verif.Rewrite.Inline
import Verif.Rewrite.InlineModel
import Verif.Rewrite.InlineSpec
import Verif.Rewrite.Lower
import Verif.Rewrite.LowerEx
import Verif.Rewrite.Model
import Verif.Rewrite.Spec
import Verif.Rewrite.Transform
import Verif.Rewrite.TransformEx
import Verif.Rng.Fix
import Verif.Rng.Fp
import Verif.Rng.Model
import Verif.Rng.Spec
import Verif.Rootn.Lemmas
import Verif.Rootn.Main
import Verif.Rootn.Model
import Verif.Rootn.Spec
import Verif.Rootn.Theorems
import Verif.RtlSw.Model
import Verif.RtlSw.Spec
import Verif.RtlSw.Theorems
import Verif.Rvv.Model
import Verif.Rvv.Spec
import Verif.Rvv.Theorems
import Verif.SBool.Model
import Verif.SBool.Spec
import Verif.SBool.Theorems
import Verif.Search.Model
import Verif.Search.Spec
import Verif.Search.Theorems
import Verif.Share.Lemmas
import Verif.Share.Model
import Verif.Share.Spec
import Verif.Share.Theorems
import Verif.Simplify.Model
import Verif.Simplify.Spec
import Verif.Simplify.Theorems
import Verif.Softmax.Model
import Verif.Softmax.Spec
import Verif.Softmax.Theorems
import Verif.Special.Model
import Verif.Special.Spec
import Verif.Special.Theorems
import Verif.Stack.Model
import Verif.Stack.Spec
import Verif.Stack.Theorems
import Verif.Stages.Model
import Verif.Stages.Spec
import Verif.Stages.Theorems
import Verif.Subnorm.CThms
import Verif.Subnorm.Lemmas
import Verif.Subnorm.Model
import Verif.Subnorm.Spec
import Verif.Subnorm.Theorems
import Verif.Table.Model
import Verif.Table.Spec
import Verif.Table.Theorems
import Verif.Tabs.Model
import Verif.Tabs.Spec
import Verif.Tabs.Theorems
import Verif.Tags.Model
import Verif.Tags.Spec
import Verif.Tags.Theorems
import Verif.Tanh.Model
import Verif.Tanh.Spec
import Verif.Tanh.Theorems
import Verif.Trig.Lemmas
import Verif.Trig.Model
import Verif.Trig.Red
import Verif.Trig.SinLemmas
import Verif.Trig.SinModel
import Verif.Trig.SinThms
import Verif.Trig.Sincos
import Verif.Trig.Spec
import Verif.Trig.Step
import Verif.Trig.Theorems
import Verif.Typing.Model
import Verif.Typing.Spec
import Verif.Typing.Theorems
import Verif.VBool.Model
import Verif.VBool.Spec
import Verif.VBool.Theorems
import Verif.VLog.Model
import Verif.VLog.Spec
import Verif.VLog.Theorems
import Verif.Vec.Model
import Verif.Vec.Spec
import Verif.Vec.Theorems
import Verif.VecTable.Model
import Verif.VecTable.Spec
import Verif.VecTable.Theorems
import Verif.Vhdl.Lemmas
import Verif.Vhdl.Model
import Verif.Vhdl.Spec
import Verif.Vhdl.Theorems
import Verif.X86.Data
import Verif.X86.DataThms
import Verif.X86.Model
import Verif.X86.Spec
import Verif.X86.Theorems
