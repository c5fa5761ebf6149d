import Verif.Arr.Spec
import Verif.Vec.Model
import Mathlib.Data.Int.Notation

/-! # Model of the array functions

metalibm_functions/vectorial_function.py, metalibm_functions/vla_function.py with metalibm_core/core/vla_vectorizer.py. Elements are abstract, their
operations too. A loop runs on fuel and gives `none` when it runs out of it. -/

namespace Verif.Arr

open Verif.Vec (Expr Var Stmt extract instantiate)

variable {V : Type}

/-- an `ML_UInt32` -/
def u32 (n : ℕ) : ℕ := n % 2 ^ 32

/-- an `ML_Int32` -/
def i32 (x : ℤ) : ℤ := (x + 2 ^ 31) % 2 ^ 32 - 2 ^ 31

/-- `TableLoad` of a vector format: `k` consecutive elements -/
def load (m : Mem V) (a k : ℕ) : List V := (List.range k).map fun j => m (a + j)

/-- `TableStore` of a vector format -/
def store (m : Mem V) (a : ℕ) (l : List V) : Mem V := fun x => if a ≤ x then (l[x - a]?).getD (m x) else m x

/-- vectorial_function.py:274-283 `main_loop` (and 290-299 `epilog_loop` for `k = 1`): `k` elements per iteration, from index `i` to the bound. -/
def vecLoop (k : ℕ) (g : List V → List V) (dst src bound : ℕ) : ℕ → ℕ → Mem V → Option (ℕ × Mem V)
  | 0, _, _ => none
  | fuel + 1, i, m =>
      if i < bound then vecLoop k g dst src bound fuel (u32 (i + k)) (store m (dst + i) (g (load m (src + i) k)))
      else some (i, m)

/-- vectorial_function.py:165-306 `generate_scheme`: `k` is `multi_elt_num`, `g` the vectorized function, `f` the scalar one (the inlined scheme, the
libm function, or the scalar callback). -/
def arrayFn (k : ℕ) (g : List V → List V) (f : V → V) (dst src n fuel : ℕ) (m : Mem V) : Option (Mem V) :=
  if 1 < k then
    match vecLoop k g dst src (u32 (2 ^ 32 + n - n % k)) fuel 0 m with
    | none => none
    | some (i, m') => (vecLoop 1 (·.map f) dst src n fuel i m').map (·.2)
  else (vecLoop 1 (·.map f) dst src n fuel 0 m).map (·.2)

/-- vla_vectorizer.py:131-177 `vector_replicate_scheme_in_place`: every operation becomes a `VLAOperation` of the length `vl`, on registers of
`lanes e` elements, executed as riscv_vector.py:288-… intrinsics: the lanes after the granted length are whatever the register held (`tail`). Constants
stay scalar operands. The only vector argument is `v`; another variable is left as it is (line 150), uninitialised: `junk`, as in `Verif.Vec.start`. -/
def veval (setvl : ℕ → ℕ → ℕ) (lanes : Expr V → ℕ) (tail junk : ℕ → V) (vl : ℕ) (v : ℕ → V) : Expr V → ℕ → V
  | .const c, _ => c
  | .var (.input _), i => v i
  | .var (.loc n), _ => junk n
  | .var (.copyOf n), _ => junk n
  | .un f a, i => if i < setvl (lanes (.un f a)) vl then f (veval setvl lanes tail junk vl v a i) else tail i
  | .bin f a b, i =>
      if i < setvl (lanes (.bin f a b)) vl then f (veval setvl lanes tail junk vl v a i) (veval setvl lanes tail junk vl v b i) else tail i
  | .tern f a b c, i =>
      if i < setvl (lanes (.tern f a b c)) vl then
        f (veval setvl lanes tail junk vl v a i) (veval setvl lanes tail junk vl v b i) (veval setvl lanes tail junk vl v c i)
      else tail i

/-- vla_vectorizer.py:94-95, 181-182 `vectorizeFormat` with the group size `g`: the elements of width `w` a group of `g` registers of `vlen` bits holds -/
def groupLanes (g vlen w : ℕ) : ℕ := g * vlen / w

/-- vla_function.py:203-224, the strip mining loop. `p` is the width of the elements of the array; riscv_vector.py:276-284 `vlaGetLengthOpGen` with the
group size 1 of line 200. `rem` is `remLen`, `off` is `offset`. The vector mask is not used. -/
def vlaLoop (setvl : ℕ → ℕ → ℕ) (vlen g p : ℕ) (lanes : Expr V → ℕ) (tail junk : ℕ → V) (t : Expr V) (dst src : ℕ) :
    ℕ → ℤ → ℤ → Mem V → Option (Mem V)
  | 0, _, _, _ => none
  | fuel + 1, rem, off, m =>
      if 0 < rem then
        let l := setvl (groupLanes 1 vlen p) rem.toNat
        let v := fun j => if j < setvl (groupLanes g vlen p) l then m ((src + off).toNat + j) else tail j
        let r := veval setvl lanes tail junk l v t
        let m' := fun a => if (dst + off).toNat ≤ a ∧ a < (dst + off).toNat + setvl (groupLanes g vlen p) l then r (a - (dst + off).toNat) else m a
        vlaLoop setvl vlen g p lanes tail junk t dst src fuel (i32 (rem - i32 l)) (i32 (off + i32 l)) m'
      else some m

/-- vla_vectorizer.py:72-130 `vectorize_scheme` and vla_function.py:115-226 `generate_scheme`: the likely path of the scheme `s` is extracted and run in
the loop; `len` is converted from `ML_UInt32` to the `ML_Int32` `remLen`. `width e` is the bit size of the format of the operation `e`. -/
def vlaFn (setvl : ℕ → ℕ → ℕ) (vlen g p : ℕ) (width : Expr V → ℕ) (tail junk : ℕ → V) (s : Stmt V) (dst src n fuel : ℕ) (m : Mem V) : Option (Mem V) :=
  let path := (extract s fun _ => none).1
  match path.tree with
  | none => none
  | some t =>
      vlaLoop setvl vlen g p (fun e => groupLanes g vlen (width e)) tail junk (instantiate t path.vars) dst src fuel (i32 n) (i32 0) m

end Verif.Arr
