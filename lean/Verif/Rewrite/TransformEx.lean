import Verif.Rewrite.Transform
import Verif.Rewrite.LowerEx

/-! # C59: a pass and a graph that meet the hypotheses -/

namespace Verif.Rewrite

/-- The pass that replaces a square by a product, for graphs over `Arith`. -/
def squarePass : Methods Arith where
  can h n := (h[n]?).any (fun nd => nd.op == .sq)
  transform h n ts :=
    match h[n]?, ts with
    | some ⟨_, [_]⟩, [some t] => ([⟨.mul, [t, t]⟩], some h.length)
    | some ⟨_, [i]⟩, [none] => ([⟨.mul, [i, i]⟩], some h.length)
    | _, _ => ([], none)
  reconstruct _ _ t := ([], t)

def isSq (op : Arith) : Bool := op == .sq

theorem Eval.append {den : Arith → List ℤ → ℤ} {h g : Heap Arith} {n : ℕ} {v : ℤ} (he : Eval den h n v) : Eval den (h ++ g) n v := by
  induction he with
  | mk n nd f hg _ ih => exact .mk n nd f (by rw [List.getElem?_append_left (List.getElem?_eq_some_iff.1 hg).1]; exact hg) ih

theorem eval_mul {a : ℤ} {h : Heap Arith} {i : ℕ} {v : ℤ} (he : Eval (Arith.den a) h i v) :
    Eval (Arith.den a) (h ++ [⟨Arith.mul, [i, i]⟩]) h.length (v * v) := by
  refine .mk (h := h ++ [⟨Arith.mul, [i, i]⟩]) h.length ⟨Arith.mul, [i, i]⟩ (fun _ => v) (by simp) ?_
  intro m hm
  simp at hm
  subst hm
  exact he.append

theorem squarePass_sound (a : ℤ) : MSound Arith.arity (Arith.den a) (fun w v => w = v) squarePass := by
  refine ⟨?_, ?_⟩
  · intro h n nd ts hwf hn hcan hl hrep
    obtain ⟨h', hh', hc⟩ := hcan
    have hop : nd.op = .sq := by simpa [squarePass, hh'] using hc
    obtain ⟨op, ins⟩ := nd
    simp only at hop
    subst hop
    obtain ⟨val, hv⟩ := exists_attr (Arith.den a) 0 hwf
    have hev : ∀ {m}, m < h.length → Eval (Arith.den a) h m (val m) := fun hm => eval_of hwf hv hm
    obtain ⟨rank, hr⟩ := hwf
    have hlen := (hr n _ hn).1
    obtain ⟨i, rfl⟩ := List.length_eq_one_iff.1 (show ins.length = 1 from hlen)
    obtain ⟨t, rfl⟩ := List.length_eq_one_iff.1 (show ts.length = 1 from hl)
    have hi := ((hr n _ hn).2 i (by simp)).1
    have hn' : n < h.length := (List.getElem?_eq_some_iff.1 hn).1
    have hvn : val n = val i * val i := by
      rw [hv n _ hn]; show val i ^ 2 = _; ring
    cases t with
    | none =>
      simp only [squarePass, hn]
      refine ⟨?_, ?_⟩
      · intro k nd hk
        rcases k with _ | k <;> simp at hk
        subst hk
        refine ⟨rfl, fun x hx => Or.inl (Or.inl ?_)⟩
        simp at hx
        subst hx
        exact .step .refl hn (by simp)
      · intro r hr
        obtain rfl := Option.some.inj hr
        refine ⟨Or.inr ⟨0, by simp, by simp⟩, _, _, eval_mul (hev hi), (hev hn').append, hvn.symm⟩
    | some t =>
      simp only [squarePass, hn]
      obtain ⟨w, v, e1, e2, rfl⟩ := hrep 0 i t rfl rfl
      refine ⟨?_, ?_⟩
      · intro k nd hk
        rcases k with _ | k <;> simp at hk
        subst hk
        refine ⟨rfl, fun x hx => Or.inl (Or.inr ⟨t, by simp, ?_⟩)⟩
        simp at hx
        subst hx
        exact .refl
      · intro r hr
        obtain rfl := Option.some.inj hr
        refine ⟨Or.inr ⟨0, by simp, by simp⟩, _, _, eval_mul e1, (hev hn').append, ?_⟩
        rw [e2.unique (hev hi)]
        exact hvn.symm
  · intro h m t _ _ hrep
    refine ⟨fun k nd hk => by simp [squarePass] at hk, Or.inl (Or.inr .refl), fun v hv => ?_⟩
    obtain ⟨w, v', e1, e2, rfl⟩ := hrep
    simp only [squarePass, List.append_nil] at hv ⊢
    rw [hv.unique e2]
    exact e1

theorem squarePass_removes : Removes Arith.arity isSq squarePass := by
  refine ⟨?_, ?_, ?_⟩
  · intro h n nd hn
    simp [squarePass, hn, isSq]
  · intro h n nd ts hn hc hlen hl
    obtain ⟨op, ins⟩ := nd
    simp only [isSq, beq_iff_eq] at hc
    subst hc
    obtain ⟨i, rfl⟩ := List.length_eq_one_iff.1 (show ins.length = 1 from hlen)
    obtain ⟨t, rfl⟩ := List.length_eq_one_iff.1 (show ts.length = 1 from hl)
    cases t with
    | none =>
      simp only [squarePass, hn]
      refine ⟨⟨_, rfl, Or.inr ⟨0, by simp, by simp⟩⟩, fun k nd hk => ?_⟩
      rcases k with _ | k <;> simp at hk
      subst hk
      refine ⟨rfl, fun x hx => Or.inl (Or.inr ⟨0, rfl, ?_⟩)⟩
      simp at hx
      subst hx
      rfl
    | some t =>
      simp only [squarePass, hn]
      refine ⟨⟨_, rfl, Or.inr ⟨0, by simp, by simp⟩⟩, fun k nd hk => ?_⟩
      rcases k with _ | k <;> simp at hk
      subst hk
      refine ⟨rfl, fun x hx => Or.inl (Or.inl ?_)⟩
      simp at hx
      subst hx
      simp
  · intro h m t
    exact ⟨Or.inl rfl, fun k nd hk => by simp [squarePass] at hk⟩

/-- the square of a square, shared by two sums below the root -/
def sharedSquare : Heap Arith := [⟨.x, []⟩, ⟨.sq, [0]⟩, ⟨.sq, [1]⟩, ⟨.add, [2, 2]⟩, ⟨.add, [3, 1]⟩]

theorem sharedSquare_wf : WF Arith.arity sharedSquare := by
  refine ⟨id, fun n nd h => ?_⟩
  rcases n with _ | _ | _ | _ | _ | n <;> simp [sharedSquare] at h <;> subst h <;> simp [Arith.arity, sharedSquare]

/-- the hypotheses are met; the transformed graph -/
example : (∀ a, MSound Arith.arity (Arith.den a) (fun w v => w = v) squarePass) ∧ Removes Arith.arity isSq squarePass ∧
    WF Arith.arity sharedSquare ∧
    (executeOnOptree squarePass 10 sharedSquare 4).map (fun q => (q.1.heap, q.1.log, q.2)) =
      some ([⟨.x, []⟩, ⟨.sq, [0]⟩, ⟨.sq, [1]⟩, ⟨.add, [6, 6]⟩, ⟨.add, [3, 5]⟩, ⟨.mul, [0, 0]⟩, ⟨.mul, [5, 5]⟩], [1, 2], some 4) :=
  ⟨squarePass_sound, squarePass_removes, sharedSquare_wf, by decide +kernel⟩

example (a : ℤ) := C59_transform (squarePass_sound a) sharedSquare_wf (n := 4) (by decide)

example (a : ℤ) := C59_transform_complete (squarePass_sound a) squarePass_removes sharedSquare_wf (n := 4) (by decide)

/-- the same pass through `execute`: `None` -/
example : (execute squarePass 10 sharedSquare 4).map (fun q => q.2) = some none := by decide +kernel

end Verif.Rewrite
