import Verif.HOrder.ModelMbl
import Verif.HOrder.LemmasKp

/-!
# Ordering of meshes by blocks: proofs
-/

set_option autoImplicit false

namespace Scotch.HOrder
open Graph Rand

theorem mblSizes_holds {v m : Int} (hm : 0 < m) (hv : 2 * m ≤ v) :
    ∃ l : List Int, mblSizes v (v / m) = .ok l ∧ (l.length : Int) = v / m ∧ EvenSplit v m l := by
  have h2 : 2 ≤ v / m := (Int.le_ediv_iff_mul_le hm).2 (by omega)
  have hmul : v / m * m ≤ v := Int.ediv_mul_le v (by omega)
  have hlt : v < (v / m + 1) * m := Int.lt_ediv_add_one_mul_self v hm
  generalize hn : v / m = n at h2 hmul hlt ⊢
  have hle : n ≤ v := by nlinarith
  obtain ⟨l, l1, l2, _, l4⟩ := dataSizes_holds (n := v) (p := n) (by omega) hle
  have hmap : (List.range n.toNat).mapM (fun k => Rand.dataSize v n (k : Nat)) = .ok ((List.range n.toNat).map fun k => (v + (n - 1 - (k : Nat))) / n) := by
    apply mapM_ok
    intro i hi
    rw [List.mem_range] at hi
    unfold Rand.dataSize Rand.cdiv
    rw [if_neg (by omega), Int.tdiv_eq_ediv_of_nonneg (by omega)]
  rw [hmap] at l1
  injection l1 with l1
  have hq : n * (v / n) ≤ v := Int.mul_ediv_self_le (by omega)
  have hq' : v < n * (v / n) + n := by
    have := Int.lt_ediv_add_one_mul_self v (show 0 < n by omega)
    nlinarith
  have hb : ∀ x ∈ l, v / n ≤ x ∧ x ≤ v / n + 1 ∧ n * x ≤ v + (n - 1) := by
    intro x hx
    rw [← l1, List.mem_map] at hx
    obtain ⟨i, hi, rfl⟩ := hx
    rw [List.mem_range] at hi
    refine ⟨Int.ediv_le_ediv (by omega) (by omega), ?_, ?_⟩
    · have : (v + (n - 1 - (i : Nat))) / n < v / n + 2 := (Int.ediv_lt_iff_lt_mul (by omega)).2 (by nlinarith)
      omega
    · have := Int.mul_ediv_self_le (x := v + (n - 1 - (i : Nat))) (show n ≠ 0 by omega)
      omega
  refine ⟨l, ?_, l2, l4, ?_, ?_, ?_⟩
  · unfold mblSizes
    rw [← l1]
    apply mapM_ok
    intro i hi
    rw [List.mem_range] at hi
    unfold Rand.cdiv
    rw [if_neg (by omega), Int.tdiv_eq_ediv_of_nonneg (by omega)]
    congr 2
    omega
  · intro x hx
    have := (hb x hx).1
    have : m ≤ v / n := (Int.le_ediv_iff_mul_le (by omega)).2 (by nlinarith)
    omega
  · intro x hx
    have h3 := (hb x hx).2.2
    by_contra hc
    have : n * (2 * m) ≤ n * x := Int.mul_le_mul_of_nonneg_left (by omega) (by omega)
    nlinarith
  · intro x hx y hy
    have := (hb x hx).2.1
    have := (hb y hy).1
    omega

/-- When the strategy leaves a single block, ordering a mesh by blocks leaves it as it is if it has less than twice the smallest size of blocks; else, the block becomes a sequence of as many leaf blocks of at least this size as there can be, which have the
same numbers of nodes to within one, and the numbers of tree nodes and of column blocks of the ordering count them. Nodes keep their places. Partial: strategies that make several blocks are the subject of `C71_endless`, and the strategy itself is
arbitrary. -/
theorem C71_split_partial {sub : Ord → Cblk → M Res} {m : Int} {o o' : Ord} {c : Cblk} {t v k : Int} (fuel : Nat) (hm : 0 < m) (hs : sub o c = .ok (0, o', .leaf t v k)) :
    (v < 2 * m → mblGo sub m (fuel + 1) o c = .ok (0, o', .leaf t v k)) ∧
    (2 * m ≤ v → ∃ l : List Int, EvenSplit v m l ∧ (l.length : Int) * m ≤ v ∧ v < ((l.length : Int) + 1) * m ∧
      mblGo sub m (fuel + 1) o c = .ok (0, { o' with treenbr := o'.treenbr + l.length, cblknbr := o'.cblknbr - 1 + l.length },
        .node ORDERCBLKSEQU v l.length (l.map fun n => .leaf ORDERCBLKLEAF n 0))) := by
  constructor
  · intro hv
    unfold mblGo
    rw [if_neg (by omega), hs]
    show (if v < 2 * m then _ else _) = _
    rw [if_pos hv]
    rfl
  · intro hv
    obtain ⟨l, l1, l2, l3⟩ := mblSizes_holds hm hv
    refine ⟨l, l3, ?_, ?_, ?_⟩
    · rw [l2]; exact Int.ediv_mul_le v (by omega)
    · rw [l2]; exact Int.lt_ediv_add_one_mul_self v hm
    · unfold mblGo
      rw [if_neg (by omega), hs]
      show (if v < 2 * m then _ else _) = _
      have hd : cdiv v m = .ok (v / m) := by
        unfold cdiv
        rw [if_neg (by omega), Int.tdiv_eq_ediv_of_nonneg (by omega)]
      rw [if_neg (by omega), hd]
      show (mblSizes v (v / m) >>= fun sizes => _) = _
      rw [l1, l2]
      show Except.ok _ = Except.ok _
      rw [show o'.cblknbr + (v / m - 1) = o'.cblknbr - 1 + v / m by omega]
      rfl

/-- Errors: a smallest size of blocks that is not positive is refused before anything is done, and a failure of the strategy is reported. -/
theorem C71_errors {sub : Ord → Cblk → M Res} {m : Int} (fuel : Nat) (o : Ord) (c : Cblk) :
    (m ≤ 0 → mblGo sub m (fuel + 1) o c = .ok (1, o, c)) ∧
    (∀ e o' c', 0 < m → sub o c = .ok (e, o', c') → e ≠ 0 → mblGo sub m (fuel + 1) o c = .ok (1, o', c')) := by
  constructor
  · intro h
    unfold mblGo
    rw [if_pos h]
    rfl
  · intro e o' c' h hs he
    unfold mblGo
    rw [if_neg (by omega), hs]
    show (if e ≠ 0 then _ else _) = _
    rw [if_pos he]
    rfl

/-- `hmeshOrderBl` applies its strategy to the whole mesh again for each of the blocks that it makes (hmesh_order_bl.c:124–128): with a strategy that makes several blocks, it does not end, however many nested calls are allowed. -/
theorem C71_endless {sub : Ord → Cblk → M Res} {m : Int} (hm : 0 < m) (hs : ∀ o c, ∃ o' t v k s l, sub o c = .ok (0, o', .node t v k (s :: l)) ∧ 0 < k) (fuel : Nat) : ∀ o c, mblGo sub m fuel o c = .error .fuel := by
  induction fuel with
  | zero => intro o c; rfl
  | succ fuel ih =>
    intro o c
    obtain ⟨o', t, v, k, s, l, he, hk⟩ := hs o c
    unfold mblGo
    rw [if_neg (by omega), he]
    show (blSons (mblGo sub m fuel) (s :: l) k.toNat o' [] >>= _) = _
    obtain ⟨n, hn⟩ : ∃ n, k.toNat = n + 1 := ⟨k.toNat - 1, by omega⟩
    rw [hn, blSons, ih]
    rfl

/-- A strategy that leaves a single block. -/
example : (mblGo (fun o c => .ok (0, o, c)) 3 1 ⟨⟨0, 11, id⟩, 1, 1, 0⟩ (leafBlock 11)).map (fun r => (r.2.1.treenbr, r.2.1.cblknbr, r.2.2)) =
    .ok (4, 3, .node ORDERCBLKSEQU 11 3 [leafBlock 4, leafBlock 4, leafBlock 3]) := rfl

/-- A strategy that makes two blocks meets the hypothesis of `C71_endless`. -/
example : ∀ (o : Ord) (c : Cblk), ∃ o' t v k s l, (fun (o : Ord) (_ : Cblk) => (.ok (0, o, .node ORDERCBLKNEDI 4 2 [leafBlock 2, leafBlock 2]) : M Res)) o c = .ok (0, o', .node t v k (s :: l)) ∧ 0 < k :=
  fun o _ => ⟨o, _, _, _, _, _, rfl, by decide⟩

end Scotch.HOrder
