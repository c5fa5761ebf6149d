import Verif.Arr.Model
import Verif.Vec.Theorems
import Mathlib.Tactic.Ring

namespace Verif.Arr

open Verif.Vec (Expr Var Stmt extract instantiate andMerge start scalar Good)

variable {V : Type}

theorem elem_zero (f : V → V) (dst src : ℕ) (m : Mem V) : Elementwise f dst src 0 m m :=
  ⟨fun k hk => absurd hk (by omega), fun _ _ => rfl⟩

/-- extending an array already written up to `i` with `l` more elements -/
theorem elem_chunk {f : V → V} {dst src n i l : ℕ} {m0 m m' : Mem V} (ho : NoOverrun dst src n) (hl : i + l ≤ n) (h : Elementwise f dst src i m0 m)
    (h1 : ∀ k, k < l → m' (dst + i + k) = f (m (src + i + k))) (h2 : ∀ a, a < dst + i ∨ dst + i + l ≤ a → m' a = m a) :
    Elementwise f dst src (i + l) m0 m' := by
  constructor
  · intro k hk
    by_cases hki : k < i
    · rw [h2 _ (Or.inl (by omega)), h.1 k hki]
    · obtain ⟨j, rfl⟩ : ∃ j, k = i + j := ⟨k - i, by omega⟩
      have hj := h1 j (by omega)
      rw [Nat.add_assoc] at hj
      rw [hj, Nat.add_assoc]
      congr 1
      apply h.2
      rcases ho with ho | ho
      · right; omega
      · left; omega
  · intro a ha
    rw [h2 a (by omega), h.2 a (by omega)]

theorem store_in (m : Mem V) (a : ℕ) (l : List V) (k : ℕ) (hk : k < l.length) : store m a l (a + k) = l[k] := by
  unfold store
  rw [if_pos (by omega), Nat.add_sub_cancel_left, List.getElem?_eq_getElem hk, Option.getD_some]

theorem store_out (m : Mem V) (a : ℕ) (l : List V) (x : ℕ) (hx : x < a ∨ a + l.length ≤ x) : store m a l x = m x := by
  unfold store
  split_ifs with h
  · rw [List.getElem?_eq_none (by omega), Option.getD_none]
  · rfl

/-- the loops of `arrayFn` -/
theorem vecLoop_spec (k : ℕ) (hk : 0 < k) (g : List V → List V) (f : V → V) (hg : ∀ l, l.length = k → g l = l.map f) {dst src n : ℕ}
    (ho : NoOverrun dst src n) (m0 : Mem V) (bound : ℕ) (hb : bound ≤ n) (hn : n < 2 ^ 32) :
    ∀ q i m, i + k * q = bound → Elementwise f dst src i m0 m →
      ∀ fuel, q < fuel → ∃ m', vecLoop k g dst src bound fuel i m = some (bound, m') ∧ Elementwise f dst src bound m0 m' := by
  intro q
  induction q with
  | zero =>
    intro i m hi h fuel hf
    obtain ⟨fu, rfl⟩ : ∃ fu, fuel = fu + 1 := ⟨fuel - 1, by omega⟩
    have : i = bound := by simpa using hi
    subst this
    refine ⟨m, ?_, h⟩
    rw [vecLoop, if_neg (by omega)]
  | succ q ih =>
    intro i m hi h fuel hf
    obtain ⟨fu, rfl⟩ : ∃ fu, fuel = fu + 1 := ⟨fuel - 1, by omega⟩
    have hi2 : i + k + k * q = bound := by rw [← hi, Nat.mul_succ]; omega
    rw [vecLoop, if_pos (by omega)]
    have hu : u32 (i + k) = i + k := by
      unfold u32
      apply Nat.mod_eq_of_lt
      omega
    rw [hu]
    have hlen : (load m (src + i) k).length = k := by simp [load]
    refine ih (i + k) _ hi2 ?_ fu (by omega)
    refine elem_chunk ho (by omega) h ?_ ?_
    · intro j hj
      rw [store_in _ _ _ _ (by rw [hg _ hlen, List.length_map, hlen]; exact hj)]
      have e : g (load m (src + i) k) = (load m (src + i) k).map f := hg _ hlen
      simp only [e, List.getElem_map]
      simp [load]
    · intro a ha
      refine store_out _ _ _ _ ?_
      rw [hg _ hlen, List.length_map, hlen]
      exact ha

/-- **C103**, `vectorial_function`: for every number of elements per iteration, every length an `ML_UInt32` holds and every array, the loop ends and each
element is replaced by its image, once, whatever the remainder of the length by the number of elements per iteration, in place or not. The vectorized
function `g` agrees with the scalar one on each lane (C50), and the destination does not start inside the source. -/
theorem C103_array (k : ℕ) (g : List V → List V) (f : V → V) (hg : ∀ l, l.length = k → g l = l.map f) (dst src n : ℕ) (hn : n < 2 ^ 32)
    (ho : NoOverrun dst src n) (m : Mem V) (fuel : ℕ) (hf : n < fuel) :
    ∃ m', arrayFn k g f dst src n fuel m = some m' ∧ Elementwise f dst src n m m' := by
  have one : ∀ l : List V, l.length = 1 → l.map f = l.map f := fun _ _ => rfl
  unfold arrayFn
  split_ifs with h
  · have hm := Nat.mod_add_div n k
    have hmk : n % k < k := Nat.mod_lt _ (by omega)
    have hb : u32 (2 ^ 32 + n - n % k) = n - n % k := by
      have : n % k ≤ n := Nat.mod_le _ _
      have e : 2 ^ 32 + n - n % k = (n - n % k) + 2 ^ 32 := by omega
      rw [u32, e, Nat.add_mod_right, Nat.mod_eq_of_lt (by omega)]
    have hq : n / k < fuel := lt_of_le_of_lt (Nat.div_le_self _ _) hf
    rw [hb]
    obtain ⟨m1, e1, h1⟩ := vecLoop_spec k (by omega) g f hg ho m (n - n % k) (by omega) hn (n / k) 0 m (by omega) (elem_zero _ _ _ _) fuel hq
    rw [e1]
    have hr : n % k ≤ n := Nat.mod_le _ _
    obtain ⟨m2, e2, h2⟩ := vecLoop_spec 1 (by omega) (·.map f) f one ho m n le_rfl hn (n % k) (n - n % k) m1 (by omega) h1 fuel (by omega)
    refine ⟨m2, ?_, h2⟩
    simp only [e2, Option.map_some]
  · obtain ⟨m2, e2, h2⟩ := vecLoop_spec 1 (by omega) (·.map f) f one ho m n le_rfl hn n 0 m (by omega) (elem_zero _ _ _ _) fuel hf
    exact ⟨m2, by rw [e2]; rfl, h2⟩

/-- **C103** with the static vectorizer: the vectorized function is the one C50 is about, `f` is the scalar function. -/
theorem C103_array_vectorized_partial (truth : V → Bool) (junk : ℕ → V) (s : Stmt V) (hG : Good s) (k sub : ℕ) (hd : sub ∣ k) (f : V → V)
    (hf : ∀ x, scalar truth junk s (fun _ => x) = some (f x)) (hret : (extract s fun _ => none).1.tree ≠ none)
    (dst src n : ℕ) (hn : n < 2 ^ 32) (ho : NoOverrun dst src n) (m : Mem V) :
    ∃ m', arrayFn k (fun l => ((Vec.vectorFn truth junk s k sub fun _ j => l.getD j (junk 0)).getD []).map fun o => o.getD (junk 0)) f dst src n (n + 1) m
        = some m' ∧ Elementwise f dst src n m m' := by
  refine C103_array k _ f ?_ dst src n hn ho m _ (by omega)
  intro l hl
  cases hv : Vec.vectorFn truth junk s k sub fun _ j => l.getD j (junk 0) with
  | none =>
    exfalso
    unfold Vec.vectorFn at hv
    simp only at hv
    cases ht : (extract s fun _ => none).1.tree with
    | none => exact hret ht
    | some t =>
      rw [ht] at hv
      simp only at hv
      split_ifs at hv
  | some r =>
    have := Vec.C50_vector_function_partial junk s hG hd _ hv
    rw [this]
    apply List.ext_getElem
    · simp [hl]
    · intro j h1 h2
      simp only [Option.getD_some, List.map_map, List.getElem_map, List.getElem_range, Function.comp]
      have hj : j < l.length := by simpa using h2
      rw [hf, Option.getD_some, List.getD_eq_getElem?_getD, List.getElem?_eq_getElem hj, Option.getD_some]

/-- seven elements by groups of three: two vector iterations and one scalar one -/
example : ∃ m', arrayFn 3 (·.map (· + 1)) (· + 1) 100 0 7 8 (fun a => (a : ℤ)) = some m' ∧ m' 106 = 7 ∧ m' 99 = 99 ∧ m' 107 = 107 := by
  obtain ⟨m', h, h1, h2⟩ := C103_array 3 (·.map (· + 1)) (· + 1) (fun _ _ => rfl) 100 0 7 (by omega) (Or.inr (by omega)) (fun a => (a : ℤ)) 8 (by omega)
  exact ⟨m', h, h1 6 (by omega), h2 _ (Or.inl (by omega)), h2 _ (Or.inr (by omega))⟩

/-- The condition on the position of the arrays is needed: with the destination one element after the source, an element read has been overwritten. -/
theorem C103_overlap_wrong : ¬ ∀ (dst src n : ℕ) (m m' : Mem ℕ), arrayFn 1 id (· + 1) dst src n (n + 1) m = some m' →
    Elementwise (· + 1) dst src n m m' := by
  intro h
  have := (h 1 0 2 (fun _ => 0) (store (store (fun _ => 0) 1 [1]) 2 [2]) (by
    simp [arrayFn, vecLoop, u32, load, store])).1 1 (by omega)
  simp [store] at this

/-! ### Vector-length agnostic functions -/

/-- every operation of the expression is on elements of at most `w` bits -/
def WidthLe (width : Expr V → ℕ) (w : ℕ) : Expr V → Prop
  | .const _ => True
  | .var _ => True
  | .un f a => 0 < width (.un f a) ∧ width (.un f a) ≤ w ∧ WidthLe width w a
  | .bin f a b => 0 < width (.bin f a b) ∧ width (.bin f a b) ≤ w ∧ WidthLe width w a ∧ WidthLe width w b
  | .tern f a b c => 0 < width (.tern f a b c) ∧ width (.tern f a b c) ≤ w ∧ WidthLe width w a ∧ WidthLe width w b ∧ WidthLe width w c

theorem lanes_le {g vlen p w : ℕ} (h0 : 0 < w) (hw : w ≤ g * p) : groupLanes 1 vlen p ≤ groupLanes g vlen w := by
  unfold groupLanes
  rw [Nat.le_div_iff_mul_le h0, Nat.one_mul]
  calc vlen / p * w ≤ vlen / p * (g * p) := Nat.mul_le_mul_left _ hw
    _ = g * (vlen / p * p) := by ring
    _ ≤ g * vlen := Nat.mul_le_mul_left _ (Nat.div_mul_le_self _ _)

theorem veval_eq {setvl : ℕ → ℕ → ℕ} (hs : SetVl setvl) {vlen g p vl : ℕ} (hv : vl ≤ groupLanes 1 vlen p) (width : Expr V → ℕ) (tail : ℕ → V)
    (junk : ℕ → V) (v : ℕ → V) (i : ℕ) (hi : i < vl) (t : Expr V) (hl : t.noLoc) (hw : WidthLe width (g * p) t) :
    veval setvl (fun e => groupLanes g vlen (width e)) tail junk vl v t i = t.eval (start junk fun _ => v i) := by
  have key : ∀ w, 0 < w → w ≤ g * p → i < setvl (groupLanes g vlen w) vl := by
    intro w h0 h1
    rw [hs.all _ _ (le_trans hv (lanes_le h0 h1))]
    exact hi
  induction t with
  | const c => rfl
  | var x =>
    cases x with
    | input n => rfl
    | loc n => exact absurd hl (by simp [Vec.Expr.noLoc])
    | copyOf n => rfl
  | un f a ih =>
    rw [veval, if_pos (key _ hw.1 hw.2.1), ih hl hw.2.2]
    rfl
  | bin f a b ia ib =>
    rw [veval, if_pos (key _ hw.1 hw.2.1), ia hl.1 hw.2.2.1, ib hl.2 hw.2.2.2]
    rfl
  | tern f a b c ia ib ic =>
    rw [veval, if_pos (key _ hw.1 hw.2.1), ia hl.1 hw.2.2.1, ib hl.2.1 hw.2.2.2.1, ic hl.2.2 hw.2.2.2.2]
    rfl

theorem i32_id {x : ℤ} (h0 : 0 ≤ x) (h1 : x < 2147483648) : i32 x = x := by
  unfold i32
  norm_num
  omega

theorem i32_sub {q l : ℕ} (h : l ≤ q) (hq : q < 2147483648) : i32 ((q : ℤ) - i32 (l : ℤ)) = ((q - l : ℕ) : ℤ) := by
  have hl : i32 (l : ℤ) = l := i32_id (by omega) (by omega)
  rw [hl, Nat.cast_sub h]
  exact i32_id (by omega) (by omega)

theorem i32_add {i l : ℕ} (h : i + l < 2147483648) : i32 ((i : ℤ) + i32 (l : ℤ)) = ((i + l : ℕ) : ℤ) := by
  have hl : i32 (l : ℤ) = l := i32_id (by omega) (by omega)
  rw [hl, Nat.cast_add]
  exact i32_id (by omega) (by omega)

theorem setvl_pos {setvl : ℕ → ℕ → ℕ} (hs : SetVl setvl) {M a : ℕ} (hM : 0 < M) (ha : 0 < a) :
    0 < setvl M a ∧ setvl M a ≤ a ∧ setvl M a ≤ M := by
  by_cases h1 : a ≤ M
  · rw [hs.all _ _ h1]; omega
  · by_cases h2 : a < 2 * M
    · have := hs.half M a (by omega) h2
      omega
    · rw [hs.full _ _ (by omega)]; omega

theorem vlaLoop_spec {setvl : ℕ → ℕ → ℕ} (hs : SetVl setvl) {vlen g p : ℕ} (hg : 0 < g) (hp : 0 < p) (hv : p ≤ vlen) (width : Expr V → ℕ)
    (tail junk : ℕ → V) (t : Expr V) (hl : t.noLoc) (hw : WidthLe width (g * p) t) {dst src n : ℕ} (hn : n < 2147483648) (ho : NoOverrun dst src n)
    (m0 : Mem V) :
    ∀ q i m, i + q = n → Elementwise (fun x => t.eval (start junk fun _ => x)) dst src i m0 m → ∀ fuel, q < fuel →
      ∃ m', vlaLoop setvl vlen g p (fun e => groupLanes g vlen (width e)) tail junk t dst src fuel q i m = some m' ∧
        Elementwise (fun x => t.eval (start junk fun _ => x)) dst src n m0 m' := by
  intro q
  induction q using Nat.strongRecOn with
  | _ q ih =>
    intro i m hi h fuel hf
    obtain ⟨fu, rfl⟩ : ∃ fu, fuel = fu + 1 := ⟨fuel - 1, by omega⟩
    rw [vlaLoop]
    by_cases hq : q = 0
    · subst hq
      rw [if_neg (by simp)]
      have : i = n := by omega
      subst this
      exact ⟨m, rfl, h⟩
    · rw [if_pos (by omega)]
      dsimp only
      rw [Int.toNat_natCast, ← Nat.cast_add, ← Nat.cast_add, Int.toNat_natCast, Int.toNat_natCast]
      have hM : 0 < groupLanes 1 vlen p := by
        unfold groupLanes
        rw [Nat.one_mul]
        exact Nat.div_pos hv hp
      obtain ⟨l0, l1, l2⟩ := setvl_pos hs hM (show 0 < q by omega)
      obtain ⟨l, hle⟩ : ∃ l, l = setvl (groupLanes 1 vlen p) q := ⟨_, rfl⟩
      rw [← hle] at l0 l1 l2 ⊢
      have hsl : setvl (groupLanes g vlen p) l = l := hs.all _ _ (le_trans l2 (lanes_le hp (Nat.le_mul_of_pos_left _ hg)))
      rw [hsl]
      have e1 := i32_sub l1 (show q < 2147483648 by omega)
      have e2 := i32_add (show i + l < 2147483648 by omega)
      rw [e1, e2]
      refine ih (q - l) (by omega) (i + l) _ (by omega) ?_ fu (by omega)
      refine elem_chunk ho (by omega) h ?_ ?_
      · intro k hk
        rw [if_pos ⟨Nat.le_add_right _ _, Nat.add_lt_add_left hk _⟩, Nat.add_sub_cancel_left, veval_eq hs l2 width tail junk _ k hk t hl hw, if_pos hk]
      · intro a ha
        exact if_neg fun hh => by
          clear hn e1 e2
          rcases ha with ha | ha
          · exact absurd hh.1 (Nat.not_le.2 ha)
          · exact absurd hh.2 (Nat.not_lt.2 ha)

theorem tree_noLoc {s : Stmt V} (hG : Good s) {truth : V → Bool} {junk inp : ℕ → V} {t : Expr V} (ht : (extract s fun _ => none).1.tree = some t)
    (hm : ((andMerge (extract s fun _ => none).1.masks).copy).eval truth (start junk inp) = true) :
    (instantiate t (extract s fun _ => none).1.vars).noLoc := by
  rw [Vec.andMerge_copy _ (Vec.masks_copy s _ hG), Vec.andMerge_eval, List.all_eq_true] at hm
  have h := Vec.extract_ok s _ _ hG (Vec.agree_start junk inp) hm
  unfold Vec.Ok at h
  rw [ht] at h
  rw [Vec.instantiate_noLoc _ _ h.2]
  exact h.2

/-- **C103**, the vector-length agnostic function: on every machine (register size, choice of the granted length among those the RISC-V specification
allows), for every length below `2^31` and every array, the loop ends and each element is replaced by the value of the scalar function.
Partial: the elements take the likely path of the scheme (`mask`), no operation is on elements wider than the group size times the elements of the
array, the length is below `2^31`; see the three `_wrong` theorems. -/
theorem C103_vla_partial {setvl : ℕ → ℕ → ℕ} (hs : SetVl setvl) {vlen g p : ℕ} (hg : 0 < g) (hp : 0 < p) (hv : p ≤ vlen) (width : Expr V → ℕ)
    (tail junk : ℕ → V) (truth : V → Bool) (s : Stmt V) (hG : Good s) (t : Expr V) (ht : (extract s fun _ => none).1.tree = some t)
    (hw : WidthLe width (g * p) (instantiate t (extract s fun _ => none).1.vars)) (f : V → V)
    (hf : ∀ x, scalar truth junk s (fun _ => x) = some (f x)) (dst src n : ℕ) (hn : n < 2147483648) (ho : NoOverrun dst src n) (m : Mem V)
    (mask : ∀ k, k < n → ((andMerge (extract s fun _ => none).1.masks).copy).eval truth (start junk fun _ => m (src + k)) = true)
    (fuel : ℕ) (hfu : n < fuel) :
    ∃ m', vlaFn setvl vlen g p width tail junk s dst src n fuel m = some m' ∧ Elementwise f dst src n m m' := by
  have e0 : i32 0 = ((0 : ℕ) : ℤ) := i32_id (by omega) (by omega)
  have e1 : i32 (n : ℤ) = (n : ℤ) := i32_id (by omega) (by omega)
  unfold vlaFn
  dsimp only
  rw [ht]
  dsimp only
  rw [e0, e1]
  rcases Nat.eq_zero_or_pos n with rfl | hn0
  · obtain ⟨fu, rfl⟩ : ∃ fu, fuel = fu + 1 := ⟨fuel - 1, by omega⟩
    rw [vlaLoop, if_neg (by simp)]
    exact ⟨m, rfl, elem_zero _ _ _ _⟩
  · obtain ⟨m', h1, h2⟩ := vlaLoop_spec hs hg hp hv width tail junk _ (tree_noLoc hG ht (mask 0 hn0)) hw hn ho m n 0 m (by omega)
      (elem_zero _ _ _ _) fuel hfu
    refine ⟨m', h1, ?_, h2.2⟩
    intro k hk
    rw [h2.1 k hk]
    have := Vec.C50_lane_partial (truth := truth) junk s hG (fun _ => m (src + k)) ht (mask k hk)
    rw [hf] at this
    exact (Option.some.inj this).symm

/-- the length granted when a group holds 4 elements or less of what is asked: the specification is met by taking as many as possible -/
theorem setvl_min : SetVl fun vlmax avl => min vlmax avl :=
  ⟨fun a b h => by omega, fun a b h1 h2 => by omega, fun a b h => by omega⟩

/-- `if (x < 0) [unlikely] {return 7} else {return x * x}` -/
def sq : Stmt ℤ := .ifElse (.bin (fun a b => if a < b then 1 else 0) (.var (.input 0)) (.const 0)) (some false) (.ret (.const 7))
  (.ret (.bin (· * ·) (.var (.input 0)) (.var (.input 0))))

/-- ten elements on registers of four -/
example : ∃ m', vlaFn min 128 1 32 (fun _ => 32) (fun _ => 0) (fun _ => 0) sq 100 0 10 11 (fun a => (a : ℤ)) = some m' ∧ m' 109 = 81 ∧ m' 110 = 110 := by
  have hT : (extract sq fun _ => none).1.tree = some (.bin (· * ·) (.var (.input 0)) (.var (.input 0))) := by rfl
  obtain ⟨m', h, h1, h2⟩ := C103_vla_partial (vlen := 128) (g := 1) (p := 32) setvl_min (by omega) (by omega) (by omega) (fun _ => 32) (fun _ => 0)
    (fun _ => 0) Vec.nz sq ⟨rfl, trivial, trivial⟩ _ hT (by simp [instantiate, WidthLe]) (fun x => if x < 0 then 7 else x * x)
    (by
      intro x
      by_cases hx : x < 0
      · simp [scalar, sq, Vec.exec, Vec.Expr.eval, start, Vec.nz, hx]
      · simp [scalar, sq, Vec.exec, Vec.Expr.eval, start, Vec.nz, hx])
    100 0 10 (by omega) (Or.inr (by omega)) (fun a => (a : ℤ))
    (by
      intro k _
      have : ¬ ((k : ℤ) < 0) := by omega
      simp [sq, extract, andMerge, Vec.Mask.copy, Vec.Mask.eval, Vec.nz, Vec.Expr.eval, start, Vec.Expr.copy]
      omega)
    11 (by omega)
  refine ⟨m', h, ?_, h2 _ (Or.inr (by omega))⟩
  have := h1 9 (by omega)
  simpa using this

/-- **C103 is violated** outside the likely path: the mask of the vectorizer is not used, so an element for which the scalar function returns another
value gets the value of the likely path. -/
theorem C103_vla_mask_wrong {setvl : ℕ → ℕ → ℕ} (hs : SetVl setvl) (m : Mem ℤ) (src : ℕ) (h : m src = -3) :
    scalar Vec.nz (fun _ => 0) sq (fun _ => m src) = some 7 ∧
      ∃ m', vlaFn setvl 128 1 32 (fun _ => 32) (fun _ => 0) (fun _ => 0) sq 0 src 1 2 m = some m' ∧ m' 0 = 9 := by
  have hT : (extract sq fun _ => none).1.tree = some (.bin (· * ·) (.var (.input 0)) (.var (.input 0))) := by rfl
  refine ⟨by simp [scalar, sq, Vec.exec, Vec.Expr.eval, start, Vec.nz, h], ?_⟩
  obtain ⟨m', h1, h2⟩ := vlaLoop_spec (vlen := 128) (g := 1) (p := 32) hs (by omega) (by omega) (by omega) (fun _ => 32) (fun _ => 0)
    (fun _ => 0) (.bin (· * ·) (.var (.input 0)) (.var (.input 0)) : Expr ℤ) (by simp [Vec.Expr.noLoc]) (by simp [WidthLe]) (dst := 0) (src := src)
    (n := 1) (by omega) (Or.inl (by omega)) m 1 0 m (by omega) (elem_zero _ _ _ _) 2 (by omega)
  refine ⟨m', ?_, ?_⟩
  · unfold vlaFn
    dsimp only
    rw [hT]
    have e0 : i32 0 = ((0 : ℕ) : ℤ) := i32_id (by omega) (by omega)
    have e1 : i32 ((1 : ℕ) : ℤ) = ((1 : ℕ) : ℤ) := i32_id (by omega) (by omega)
    rw [e0, e1]
    exact h1
  · have := h2.1 0 (by omega)
    simp [Vec.Expr.eval, start, h] at this
    exact this

/-- **C103 is violated** when an operation is on wider elements than the group of registers can hold for the granted length: with 128-bit registers, a
group size of 1, an array of 32-bit elements and one 64-bit operation, the third element is left to whatever the register held (`tail`). -/
theorem C103_vla_wide_wrong {setvl : ℕ → ℕ → ℕ} (hs : SetVl setvl) (f : ℤ → ℤ) (tail junk : ℕ → ℤ) (m : Mem ℤ) :
    ∃ m', vlaFn setvl 128 1 32 (fun _ => 64) tail junk (.ret (.un f (.var (.input 0)))) 100 0 4 5 m = some m' ∧ m' 102 = tail 2 := by
  have s4 : setvl 4 4 = 4 := hs.all 4 4 le_rfl
  have s2 : setvl 2 4 = 2 := hs.full 2 4 (by omega)
  have e0 : i32 0 = 0 := i32_id (by omega) (by omega)
  have e4 : i32 4 = 4 := i32_id (by omega) (by omega)
  have hT : (extract (.ret (.un f (.var (.input 0))) : Stmt ℤ) fun _ => none).1.tree = some (.un f (.var (.input 0))) := by rfl
  unfold vlaFn
  dsimp only
  rw [hT]
  dsimp only
  simp only [Nat.cast_ofNat, e4, e0]
  rw [vlaLoop, if_pos (by omega), vlaLoop]
  simp [groupLanes, s4, s2, e4, e0, instantiate, veval]

/-- **C103 is violated** from `2^31` elements on: the length is read as a negative number and nothing is computed. -/
theorem C103_vla_length_wrong (setvl : ℕ → ℕ → ℕ) (vlen g p : ℕ) (width : Expr V → ℕ) (tail junk : ℕ → V) (s : Stmt V)
    (ht : (extract s fun _ => none).1.tree ≠ none) (dst src n : ℕ) (h1 : 2147483648 ≤ n) (h2 : n < 4294967296) (m : Mem V) (fuel : ℕ) :
    vlaFn setvl vlen g p width tail junk s dst src n (fuel + 1) m = some m := by
  unfold vlaFn
  dsimp only
  cases hT : (extract s fun _ => none).1.tree with
  | none => exact absurd hT ht
  | some t =>
    dsimp only
    rw [vlaLoop, if_neg]
    unfold i32
    norm_num
    omega

end Verif.Arr
