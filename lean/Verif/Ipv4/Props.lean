import Verif.Ipv4.Lemmas

/-! # C24: searching the table is network containment -/

namespace ZT.Ipv4

/-- A bucket: the nodes `ids`, linked from `hd`. -/
def Chain (h : Heap) : Option Nat → List Nat → Prop
  | hd, [] => hd = none
  | hd, i :: is => hd = some i ∧ ∃ nd, h i = some nd ∧ Chain h nd.next is

theorem Chain.frame {h : Heap} {id : Nat} {nd : Node} : ∀ {ids : List Nat} {hd : Option Nat}, Chain h hd ids → id ∉ ids → Chain (upd h id nd) hd ids
  | [], _, c, _ => c
  | i :: is, _, ⟨e, n, hn, c⟩, hni => by
      simp only [List.mem_cons, not_or] at hni
      exact ⟨e, n, by rw [upd, if_neg (fun h => hni.1 h.symm)]; exact hn, c.frame hni.2⟩

/-- One addition: the number of the new node and the network. -/
abbrev Entry := Nat × Net

/-- The nodes of a bucket: prefix length `b`, hash key `k`. -/
def bucket (es : List Entry) (sz b k : Nat) : List Nat := (es.filter fun e => decide (e.2.len = b ∧ (addrOf e.2).addr &&& (sz - 1) = k)).map (·.1)

theorem mem_bucket {es : List Entry} {sz b k i : Nat} : i ∈ bucket es sz b k ↔ ∃ e ∈ es, e.1 = i ∧ e.2.len = b ∧ (addrOf e.2).addr &&& (sz - 1) = k := by
  simp only [bucket, List.mem_map, List.mem_filter, decide_eq_true_eq]
  constructor
  · rintro ⟨e, ⟨h1, h2⟩, h3⟩; exact ⟨e, h1, h3, h2⟩
  · rintro ⟨e, h1, h2, h3⟩; exact ⟨e, ⟨h1, h3⟩, h2⟩

/-- What the table looks like after the additions `es` (newest first) of networks with a positive prefix length. -/
structure Inv (h : Heap) (t : Tbl) (es : List Entry) : Prop where
  any : t.any = none
  tlen : t.tbl.length = 32
  szpos : 0 < t.sz
  lens : ∃ ls : List Nat, t.inn = ls ++ List.replicate (32 - ls.length) 0 ∧ ls.length ≤ 32 ∧ ls.Nodup ∧ ∀ b, b ∈ ls ↔ ∃ e ∈ es, e.2.len = b
  good : ∀ e ∈ es, e.2.Valid ∧ 0 < e.2.len
  node : ∀ e ∈ es, ∃ nx, h e.1 = some ⟨nx, addrOf e.2⟩
  slot : ∀ b, 0 < b → b ≤ 32 → (t.tbl[b - 1]? = some none ∧ ∀ e ∈ es, e.2.len ≠ b) ∨
    ∃ s, t.tbl[b - 1]? = some (some s) ∧ s.length = t.sz ∧ ∀ k, k < t.sz → ∃ hd, s[k]? = some hd ∧ Chain h hd (bucket es t.sz b k)

theorem inv_init (h : Heap) (size : Nat) : Inv h (init size) [] := by
  refine ⟨rfl, by simp [init], by simp only [init]; split <;> omega, ⟨[], by simp [init], by simp, by simp, by simp⟩, by simp, by simp, ?_⟩
  intro b h1 h2
  left
  simp only [init, List.getElem?_replicate]
  rw [if_pos (by omega)]
  simp

theorem nodup_bound (n : Nat) : ∀ ls : List Nat, ls.Nodup → (∀ b ∈ ls, b < n) → ls.length ≤ n := by
  induction n with
  | zero => intro ls _ h; cases ls with
    | nil => simp
    | cons x xs => exact absurd (h x (by simp)) (by omega)
  | succ n ih =>
      intro ls hn h
      by_cases hm : n ∈ ls
      · have := ih (ls.erase n) (hn.erase n) (fun b hb => by
          have h1 := h b (List.mem_of_mem_erase hb)
          have : b ≠ n := by rintro rfl; exact (List.Nodup.not_mem_erase hn) hb
          omega)
        rw [List.length_erase_of_mem hm] at this
        omega
      · have := ih ls hn (fun b hb => by
          have h1 := h b hb
          have : b ≠ n := by rintro rfl; exact hm hb
          omega)
        omega

theorem cover_bound (n : Nat) : ∀ ls : List Nat, (∀ b, b < n → b ∈ ls) → n ≤ ls.length := by
  induction n with
  | zero => intro ls _; omega
  | succ n ih =>
      intro ls h
      have hm := h n (by omega)
      have := ih (ls.erase n) (fun b hb => (List.mem_erase_of_ne (by omega)).2 (h b (by omega)))
      rw [List.length_erase_of_mem hm] at this
      have := List.length_pos_of_mem hm
      omega

theorem inLoop_spec (b : Nat) (k : Nat) : ∀ (ls : List Nat) (i : Nat), (∀ x ∈ ls, x ≠ 0) →
    (b ∈ ls → (inLoop b (ls ++ List.replicate k 0) i).2 = true) ∧ (b ∉ ls → inLoop b (ls ++ List.replicate k 0) i = (i + ls.length, false)) := by
  intro ls
  induction ls with
  | nil =>
      intro i _
      refine ⟨by simp, fun _ => ?_⟩
      cases k with
      | zero => simp [inLoop]
      | succ k => simp [inLoop, List.replicate_succ]
  | cons x xs ih =>
      intro i h
      have hx : x ≠ 0 := h x (by simp)
      obtain ⟨h1, h2⟩ := ih (i + 1) (fun y hy => h y (by simp [hy]))
      simp only [List.cons_append, inLoop, if_neg hx]
      by_cases hxb : x = b
      · rw [if_pos hxb]; exact ⟨fun _ => rfl, fun hn => absurd (by simp [hxb]) hn⟩
      · rw [if_neg hxb]
        refine ⟨fun hm => h1 (by simpa [Ne.symm hxb] using hm), fun hm => ?_⟩
        rw [h2 (fun hc => hm (by simp [hc]))]
        simp only [List.length_cons, Prod.mk.injEq, and_true]; omega

theorem and_lt (x sz : Nat) (h : 0 < sz) : x &&& (sz - 1) < sz := by
  have : x &&& (sz - 1) ≤ sz - 1 := Nat.and_le_right
  omega

theorem link_eq (h : Heap) (id : Nat) (a : Addr) (slot : Option Nat) : link (nodeInit h id a) id ⟨none, a⟩ slot = upd h id ⟨slot, a⟩ := by
  funext k
  cases slot with
  | none => simp only [link, nodeInit]
  | some s =>
      simp only [link, nodeInit, upd]
      split <;> rfl

theorem bucket_cons (es : List Entry) (e : Entry) (sz b k : Nat) :
    bucket (e :: es) sz b k = if e.2.len = b ∧ (addrOf e.2).addr &&& (sz - 1) = k then e.1 :: bucket es sz b k else bucket es sz b k := by
  simp only [bucket, List.filter_cons]
  split <;> simp_all

/-- One addition of a network with a positive prefix length. -/
theorem add_spec {h : Heap} {t : Tbl} {es : List Entry} (I : Inv h t es) {slots : Nat} (hs : t.sz ≤ slots) {id : Nat} {n : Net} (v : n.Valid) (hl : 0 < n.len)
    (hfresh : id ∉ es.map (·.1)) :
    ∃ h' t', add slots h t id n.ip n.len = .ok (h', t', id) ∧ Inv h' t' ((id, n) :: es) ∧ t'.sz = t.sz := by
  have hb32 : n.len ≤ 32 := v.2
  have hsz := I.szpos
  have hk := and_lt (addrOf n).addr t.sz hsz
  have htl := I.tlen
  -- the slots of the prefix length
  have hslots : ∃ s, getSlots slots t (n.len - 1) = .ok s ∧ s.length = t.sz ∧ ∀ k, k < t.sz → ∃ hd, s[k]? = some hd ∧ Chain h hd (bucket es t.sz n.len k) := by
    rcases I.slot n.len hl hb32 with ⟨e1, e2⟩ | ⟨s, e1, e2, e3⟩
    · refine ⟨List.replicate t.sz none, ?_, by simp, ?_⟩
      · rw [getSlots, rd_eq_ok.2 e1]
        simp only [Outcome.ok_bind]
        rw [if_pos hs]; rfl
      · intro k hk
        refine ⟨none, by simp [hk], ?_⟩
        have : bucket es t.sz n.len k = [] := by
          rw [List.eq_nil_iff_forall_not_mem]
          intro i hi
          obtain ⟨e, he, _, h2, _⟩ := mem_bucket.1 hi
          exact e2 e he h2
        rw [this]; rfl
    · exact ⟨s, by rw [getSlots, rd_eq_ok.2 e1]; rfl, e2, e3⟩
  obtain ⟨s, hget, hsl, hch⟩ := hslots
  obtain ⟨hd, hhd, hchain⟩ := hch _ hk
  obtain ⟨ls, hin, hls, hnd, hmem⟩ := I.lens
  have hpos : ∀ x ∈ ls, x ≠ 0 := by
    intro x hx
    obtain ⟨e, he, h1⟩ := (hmem x).1 hx
    have := (I.good e he).2; omega
  have hnz : n.len ≠ 0 := by omega
  obtain ⟨hin1, hin2⟩ := inLoop_spec n.len (32 - ls.length) ls 0 hpos
  have hbuck : ∀ b k, id ∉ bucket es t.sz b k := by
    intro b k hi
    obtain ⟨e, he, h1, _⟩ := mem_bucket.1 hi
    exact hfresh (List.mem_map.2 ⟨e, he, h1⟩)
  -- the new table, up to the `in` array
  have final : ∀ inn', (∃ ls' : List Nat, inn' = ls' ++ List.replicate (32 - ls'.length) 0 ∧ ls'.length ≤ 32 ∧ ls'.Nodup ∧ ∀ b, b ∈ ls' ↔ ∃ e ∈ (id, n) :: es, e.2.len = b) →
      Inv (upd h id ⟨hd, addrOf n⟩) ⟨t.tbl.set (n.len - 1) (some (s.set ((addrOf n).addr &&& (t.sz - 1)) (some id))), inn', t.sz, t.any⟩ ((id, n) :: es) := by
    intro inn' hlens
    refine ⟨I.any, by simp [htl], hsz, hlens, ?_, ?_, ?_⟩
    · intro e he
      rcases List.mem_cons.1 he with rfl | he
      · exact ⟨v, hl⟩
      · exact I.good e he
    · intro e he
      rcases List.mem_cons.1 he with rfl | he
      · exact ⟨hd, by simp [upd]⟩
      · obtain ⟨nx, hn⟩ := I.node e he
        refine ⟨nx, ?_⟩
        rw [upd, if_neg]
        · exact hn
        · intro hc; exact hfresh (List.mem_map.2 ⟨e, he, hc⟩)
    · intro b hb1 hb2
      simp only
      by_cases hbn : b = n.len
      · subst hbn
        right
        refine ⟨s.set ((addrOf n).addr &&& (t.sz - 1)) (some id), by rw [List.getElem?_set_self (by omega)], by simp [hsl], ?_⟩
        intro k hk'
        by_cases hkk : (addrOf n).addr &&& (t.sz - 1) = k
        · subst hkk
          refine ⟨some id, by rw [List.getElem?_set_self (by omega)], ?_⟩
          rw [bucket_cons, if_pos ⟨rfl, rfl⟩]
          exact ⟨rfl, ⟨hd, addrOf n⟩, by simp [upd], hchain.frame (hbuck _ _)⟩
        · obtain ⟨hd', e1, e2⟩ := hch k hk'
          refine ⟨hd', by rw [List.getElem?_set_ne hkk]; exact e1, ?_⟩
          rw [bucket_cons, if_neg (fun hc => hkk hc.2)]
          exact e2.frame (hbuck _ _)
      · have hne : n.len - 1 ≠ b - 1 := by omega
        rw [List.getElem?_set_ne hne]
        rcases I.slot b hb1 hb2 with ⟨e1, e2⟩ | ⟨s', e1, e2, e3⟩
        · left
          refine ⟨e1, ?_⟩
          intro e he
          rcases List.mem_cons.1 he with rfl | he
          · exact fun hc => hbn hc.symm
          · exact e2 e he
        · right
          refine ⟨s', e1, e2, fun k hk' => ?_⟩
          obtain ⟨hd', e4, e5⟩ := e3 k hk'
          refine ⟨hd', e4, ?_⟩
          rw [bucket_cons, if_neg (fun hc => hbn hc.1.symm)]
          exact e5.frame (hbuck _ _)
  -- the run
  have hself : nodeInit h id (addrOf n) id = some ⟨none, addrOf n⟩ := by simp [nodeInit, upd]
  have hrun : ∀ r, inLoop n.len t.inn 0 = r → addNode slots (nodeInit h id (addrOf n)) t id =
      (if r.2 then .ok (upd h id ⟨hd, addrOf n⟩, { t with tbl := t.tbl.set (n.len - 1) (some (s.set ((addrOf n).addr &&& (t.sz - 1)) (some id))) })
       else do
        let inn ← wr t.inn r.1 n.len
        pure (upd h id ⟨hd, addrOf n⟩, { t with tbl := t.tbl.set (n.len - 1) (some (s.set ((addrOf n).addr &&& (t.sz - 1)) (some id))), inn := inn })) := by
    intro r hr
    have hbl : (addrOf n).bitlen = n.len := rfl
    rw [addNode, hself]
    simp only [hbl, if_neg hnz, hget, Outcome.ok_bind]
    rw [rd_eq_ok.2 hhd]
    simp only [Outcome.ok_bind, link_eq]
    rw [wr_lt (by omega)]
    simp only [Outcome.ok_bind]
    rw [wr_lt (by omega)]
    simp only [Outcome.ok_bind, hr, Outcome.pure_eq]
  by_cases hm : n.len ∈ ls
  · refine ⟨upd h id ⟨hd, addrOf n⟩, { t with tbl := t.tbl.set (n.len - 1) (some (s.set ((addrOf n).addr &&& (t.sz - 1)) (some id))) }, ?_, ?_, rfl⟩
    · rw [add, I.any, mkAddr_eq v]
      simp only [Outcome.ok_bind]
      rw [hrun _ rfl, if_pos (by rw [hin]; exact hin1 hm)]
      simp only [Outcome.ok_bind, Outcome.pure_eq, I.any]
    · refine final t.inn ⟨ls, hin, hls, hnd, fun b => ?_⟩
      rw [hmem]
      simp only [List.mem_cons]
      constructor
      · rintro ⟨e, he, h1⟩; exact ⟨e, Or.inr he, h1⟩
      · rintro ⟨e, he | he, h1⟩
        · subst he; exact (hmem b).1 (h1 ▸ hm)
        · exact ⟨e, he, h1⟩
  · have hlt : ls.length < 32 := by
      apply Classical.byContradiction
      intro hge
      have hlen : ls.length = 32 := by omega
      have hb := nodup_bound 32 ((n.len :: ls).map (· - 1)) (by
        have hnd2 : (n.len :: ls).Nodup := List.nodup_cons.2 ⟨hm, hnd⟩
        rw [List.Nodup, List.pairwise_map]
        have hp2 : ∀ x ∈ n.len :: ls, x ≠ 0 := by
          intro x hx
          rcases List.mem_cons.1 hx with rfl | hx
          · exact hnz
          · exact hpos x hx
        refine List.Pairwise.imp_of_mem ?_ hnd2
        intro x y hx hy hxy
        have := hp2 x hx
        have := hp2 y hy
        omega) (by
        intro x hx
        obtain ⟨y, hy, rfl⟩ := List.mem_map.1 hx
        rcases List.mem_cons.1 hy with rfl | hy
        · omega
        · obtain ⟨e, he, h1⟩ := (hmem y).1 hy
          have := (I.good e he).1.2
          have := (I.good e he).2
          omega)
      simp at hb; omega
    have hil : t.inn.length = 32 := by rw [hin]; simp; omega
    refine ⟨upd h id ⟨hd, addrOf n⟩, ⟨t.tbl.set (n.len - 1) (some (s.set ((addrOf n).addr &&& (t.sz - 1)) (some id))), t.inn.set ls.length n.len, t.sz, t.any⟩, ?_, ?_, rfl⟩
    · rw [add, I.any, mkAddr_eq v]
      simp only [Outcome.ok_bind]
      rw [hrun (ls.length, false) (by rw [hin, hin2 hm]; simp)]
      simp only [Bool.false_eq_true, if_false]
      rw [wr_lt (by omega)]
      simp only [Outcome.ok_bind, Outcome.pure_eq, I.any]
    · refine final _ ⟨ls ++ [n.len], ?_, by simp; omega, ?_, fun b => ?_⟩
      · rw [hin, List.set_append_right _ _ (by omega), Nat.sub_self]
        rw [show 32 - ls.length = (32 - (ls ++ [n.len]).length) + 1 by simp; omega, List.replicate_succ, List.set_cons_zero]
        simp
      · rw [List.nodup_append]
        refine ⟨hnd, by simp, ?_⟩
        intro a ha b hb
        simp only [List.mem_singleton] at hb
        subst hb
        rintro rfl
        exact hm ha
      · simp only [List.mem_append, hmem, List.mem_cons, List.not_mem_nil, or_false]
        constructor
        · rintro (⟨e, he, h1⟩ | h1)
          · exact ⟨e, Or.inr he, h1⟩
          · exact ⟨(id, n), Or.inl rfl, h1.symm⟩
        · rintro ⟨e, he | he, h1⟩
          · subst he; exact Or.inr h1.symm
          · exact Or.inl ⟨e, he, h1⟩

/-! ## Search -/

theorem walk_spec {h : Heap} {needle : Addr} : ∀ {ids : List Nat} {hd : Option Nat}, Chain h hd ids → ∀ fuel, ids.length < fuel →
    ∃ r, walk h needle fuel hd = .ok r ∧ (∀ i, r = some i → i ∈ ids ∧ ∃ nd, h i = some nd ∧ addrCmp nd.addr needle = true) ∧
      (r = none → ∀ i ∈ ids, ∀ nd, h i = some nd → addrCmp nd.addr needle = false)
  | [], hd, c, fuel, hf => by
      obtain ⟨fuel, rfl⟩ : ∃ k, fuel = k + 1 := ⟨fuel - 1, by simp at hf; omega⟩
      have : hd = none := c
      subst this
      exact ⟨none, rfl, by simp, by simp⟩
  | i :: is, hd, ⟨e, nd, hn, c⟩, fuel, hf => by
      obtain ⟨fuel, rfl⟩ : ∃ k, fuel = k + 1 := ⟨fuel - 1, by simp at hf; omega⟩
      subst e
      rw [walk, hn]
      simp only
      by_cases hc : addrCmp nd.addr needle = true
      · rw [if_pos hc]
        exact ⟨some i, rfl, fun j hj => by cases hj; exact ⟨by simp, nd, hn, hc⟩, by simp⟩
      · rw [if_neg hc]
        obtain ⟨r, h1, h2, h3⟩ := walk_spec c fuel (by simp at hf; omega)
        refine ⟨r, h1, fun j hj => ⟨List.mem_cons_of_mem _ (h2 j hj).1, (h2 j hj).2⟩, fun hr j hj nd' hnd' => ?_⟩
        rcases List.mem_cons.1 hj with rfl | hj
        · rw [hn] at hnd'; cases hnd'; simpa using hc
        · exact h3 hr j hj nd' hnd'

/-- What one step of the prefix loop finds: a containing network of that length, or none exists. -/
theorem bucket_spec {h : Heap} {t : Tbl} {es : List Entry} (I : Inv h t es) {m : Net} (vm : m.Valid) {b : Nat} (hb : ∃ e ∈ es, e.2.len = b) {fuel : Nat} (hf : es.length < fuel) :
    ∃ s hd r, rd netmaskTbl b = .ok (2 ^ 32 - 2 ^ (32 - b)) ∧ rd t.tbl (b - 1) = .ok (some s) ∧ rd s (((addrOf m).addr &&& (2 ^ 32 - 2 ^ (32 - b))) &&& (t.sz - 1)) = .ok hd ∧
      walk h (addrOf m) fuel hd = .ok r ∧ (∀ i, r = some i → ∃ e ∈ es, e.1 = i ∧ Spec.Contains e.2 m) ∧
      (r = none → ∀ e ∈ es, e.2.len = b → ¬ Spec.Contains e.2 m) := by
  obtain ⟨e0, he0, hb0⟩ := hb
  have hg := I.good e0 he0
  have hb1 : 0 < b := by omega
  have hb2 : b ≤ 32 := by have := hg.1.2; omega
  rcases I.slot b hb1 hb2 with ⟨_, e2⟩ | ⟨s, e1, e2, e3⟩
  · exact absurd hb0 (e2 e0 he0)
  · obtain ⟨hd, e4, e5⟩ := e3 _ (and_lt ((addrOf m).addr &&& (2 ^ 32 - 2 ^ (32 - b))) t.sz I.szpos)
    have hlen : (bucket es t.sz b (((addrOf m).addr &&& (2 ^ 32 - 2 ^ (32 - b))) &&& (t.sz - 1))).length < fuel := by
      simp only [bucket, List.length_map]
      exact Nat.lt_of_le_of_lt (List.length_filter_le _ _) hf
    obtain ⟨r, h1, h2, h3⟩ := walk_spec (needle := addrOf m) e5 fuel hlen
    refine ⟨s, hd, r, rd_eq_ok.2 (netmask_eq b (by omega)), rd_eq_ok.2 e1, rd_eq_ok.2 e4, h1, ?_, ?_⟩
    · intro i hi
      obtain ⟨hi1, nd, hnd, hcmp⟩ := h2 i hi
      obtain ⟨e, he, he1, _, _⟩ := mem_bucket.1 hi1
      obtain ⟨nx, hn⟩ := I.node e he
      rw [he1, hnd] at hn
      cases hn
      exact ⟨e, he, he1, (cmp_iff _ _ (I.good e he).1.2 vm.2).1 hcmp⟩
    · intro hr e he hbe hc
      obtain ⟨nx, hn⟩ := I.node e he
      have hkey := mask_of_contains (I.good e he).1 vm hc
      rw [hbe] at hkey
      have hin : e.1 ∈ bucket es t.sz b (((addrOf m).addr &&& (2 ^ 32 - 2 ^ (32 - b))) &&& (t.sz - 1)) := mem_bucket.2 ⟨e, he, rfl, hbe, by rw [hkey]⟩
      have := h3 hr e.1 hin _ hn
      rw [(cmp_iff _ _ (I.good e he).1.2 vm.2).2 hc] at this
      cases this

theorem searchLoop_spec {h : Heap} {t : Tbl} {es : List Entry} (I : Inv h t es) {m : Net} (vm : m.Valid) {fuel : Nat} (hf : es.length < fuel) (tail : List Nat) :
    ∀ ls : List Nat, (∀ b ∈ ls, ∃ e ∈ es, e.2.len = b) →
    (∃ i, searchLoop h t (addrOf m) fuel (ls ++ tail) = .ok (some i) ∧ ∃ e ∈ es, e.1 = i ∧ Spec.Contains e.2 m) ∨
    (searchLoop h t (addrOf m) fuel (ls ++ tail) = searchLoop h t (addrOf m) fuel tail ∧ ∀ e ∈ es, e.2.len ∈ ls → ¬ Spec.Contains e.2 m) := by
  intro ls
  induction ls with
  | nil => intro _; right; simp
  | cons b bs ih =>
      intro hb
      obtain ⟨s, hd, r, q1, q2, q3, q4, q5, q6⟩ := bucket_spec I vm (hb b (by simp)) hf
      have hb0 : b ≠ 0 := by
        obtain ⟨e, he, h1⟩ := hb b (by simp)
        have := (I.good e he).2; omega
      have hstep : searchLoop h t (addrOf m) fuel (b :: bs ++ tail) = r.elim (searchLoop h t (addrOf m) fuel (bs ++ tail)) (fun i => .ok (some i)) := by
        rw [List.cons_append, searchLoop, if_neg hb0, q1]
        simp only [Outcome.ok_bind]
        rw [q2]
        simp only [Outcome.ok_bind]
        rw [q3]
        simp only [Outcome.ok_bind]
        rw [q4]
        simp only [Outcome.ok_bind]
        cases r <;> rfl
      cases r with
      | some i =>
          left
          exact ⟨i, hstep, q5 i rfl⟩
      | none =>
          simp only [Option.elim_none] at hstep
          rcases ih (fun x hx => hb x (by simp [hx])) with ⟨i, e1, e2⟩ | ⟨e1, e2⟩
          · exact Or.inl ⟨i, by rw [hstep, e1], e2⟩
          · right
            refine ⟨by rw [hstep, e1], fun e he hle => ?_⟩
            rcases List.mem_cons.1 hle with h1 | h1
            · exact q6 rfl e he h1
            · exact e2 e he h1

/-! ## Histories -/

/-- Adding the networks one after the other to a table; each addition comes with the address of its fresh node. -/
def addAll (slots : Nat) : Heap → Tbl → List Entry → Outcome (Heap × Tbl)
  | h, t, [] => .ok (h, t)
  | h, t, e :: es => do
      let (h, t, _) ← add slots h t e.1 e.2.ip e.2.len
      addAll slots h t es

/-- After any additions without a `/0` network the table is as described by `Inv`; after the first `/0` network, `any` is that node. -/
theorem addAll_spec {slots : Nat} : ∀ (es : List Entry) (h : Heap) (t : Tbl) (done : List Entry), Inv h t done → t.sz ≤ slots → (∀ e ∈ es, e.2.Valid) → (es.map (·.1)).Nodup →
    (∀ e ∈ es, e.1 ∉ done.map (·.1)) →
    ∃ h' t', addAll slots h t es = .ok (h', t') ∧
      ((∀ e ∈ es, e.2.len ≠ 0) → Inv h' t' (es.reverse ++ done)) ∧ ((∃ e ∈ es, e.2.len = 0) → ∃ e ∈ es, e.2.len = 0 ∧ t'.any = some e.1) := by
  intro es
  induction es with
  | nil => intro h t done I _ _ _ _; exact ⟨h, t, rfl, fun _ => by simpa using I, by simp⟩
  | cons e es ih =>
      intro h t done I hs hv hnd hfr
      simp only [List.map_cons, List.nodup_cons] at hnd
      by_cases hz : e.2.len = 0
      · -- the default network: everything after it is ignored
        have hadd : add slots h t e.1 e.2.ip e.2.len = .ok (nodeInit h e.1 (addrOf e.2), { t with any := some e.1 }, e.1) := by
          rw [add, I.any, mkAddr_eq (hv e (by simp))]
          have hself : nodeInit h e.1 (addrOf e.2) e.1 = some ⟨none, addrOf e.2⟩ := by simp [nodeInit, upd]
          simp only [Outcome.ok_bind]
          rw [addNode, hself]
          simp only
          rw [if_pos (show (addrOf e.2).bitlen = 0 from hz)]; rfl
        have hrest : ∀ (es : List Entry) (h : Heap) (t : Tbl), t.any = some e.1 → addAll slots h t es = .ok (h, t) := by
          intro es
          induction es with
          | nil => intro h t _; rfl
          | cons x xs ihx => intro h t ha; rw [addAll, add, ha]; exact ihx h t ha
        refine ⟨_, _, by rw [addAll, hadd]; exact hrest es _ _ rfl, fun hn => absurd hz (hn e (by simp)), fun _ => ⟨e, by simp, hz, rfl⟩⟩
      · obtain ⟨h1, t1, e1, I1, s1⟩ := add_spec I hs (id := e.1) (hv e (by simp)) (by omega) (hfr e (by simp))
        obtain ⟨h2, t2, e2, p1, p2⟩ := ih h1 t1 ((e.1, e.2) :: done) I1 (by omega) (fun x hx => hv x (by simp [hx])) hnd.2 (by
          intro x hx
          simp only [List.map_cons, List.mem_cons, not_or]
          refine ⟨fun hc => hnd.1 (hc ▸ List.mem_map.2 ⟨x, hx, rfl⟩), hfr x (by simp [hx])⟩)
        refine ⟨h2, t2, by rw [addAll, e1]; exact e2, fun hn => ?_, ?_⟩
        · have := p1 (fun x hx => hn x (by simp [hx]))
          simpa using this
        · rintro ⟨x, hx, hx0⟩
          rcases List.mem_cons.1 hx with rfl | hx
          · exact absurd hx0 hz
          · obtain ⟨y, hy, hy0, hya⟩ := p2 ⟨x, hx, hx0⟩
            exact ⟨y, by simp [hy], hy0, hya⟩

/-- **C24 (partial).** Any additions to a new table of any size (fresh nodes, valid networks, the pool's blocks large enough for the table), as long as
not all of the 32 prefix lengths 1..32 occur: every search ends, its result is NULL iff no added network contains the searched network (or address,
`m.len = 32`), and otherwise it is a node whose network contains it. Missing: tables with all 32 prefix lengths, where a search that finds
nothing reads outside the `in` array (`c24_full_table`). -/
theorem c24_search_partial (slots size : Nat) (hsz : (init size).sz ≤ slots) (h0 : Heap) (es : List Entry) (hv : ∀ e ∈ es, e.2.Valid) (hnd : (es.map (·.1)).Nodup)
    (hlen : (∃ e ∈ es, e.2.len = 0) ∨ ∃ b, 0 < b ∧ b ≤ 32 ∧ ∀ e ∈ es, e.2.len ≠ b) (m : Net) (vm : m.Valid) :
    ∃ h t, addAll slots h0 (init size) es = .ok (h, t) ∧ ∃ r, Runs (search h t (addrOf m)) r ∧
      (r = none ↔ ∀ e ∈ es, ¬ Spec.Contains e.2 m) ∧ (∀ i, r = some i → ∃ e ∈ es, e.1 = i ∧ Spec.Contains e.2 m) := by
  obtain ⟨h, t, e1, p1, p2⟩ := addAll_spec es h0 (init size) [] (inv_init h0 size) hsz hv hnd (by simp)
  refine ⟨h, t, e1, ?_⟩
  by_cases hz : ∃ e ∈ es, e.2.len = 0
  · obtain ⟨e, he, he0, ha⟩ := p2 hz
    have hc : Spec.Contains e.2 m := by
      refine ⟨by omega, ?_⟩
      have h1 := (hv e he).1
      have h2 := vm.1
      rw [Spec.Covers, he0, Nat.div_eq_of_lt h1, Nat.div_eq_of_lt h2]
    refine ⟨some e.1, ⟨0, fun fuel _ => by rw [search, ha]⟩, ⟨by simp, fun hn => absurd hc (hn e he)⟩, fun i hi => ?_⟩
    cases hi
    exact ⟨e, he, rfl, hc⟩
  · have hpos : ∀ e ∈ es, e.2.len ≠ 0 := fun e he h0 => hz ⟨e, he, h0⟩
    have I := p1 hpos
    rw [List.append_nil] at I
    obtain ⟨ls, hin, hls, hnd2, hmem⟩ := I.lens
    -- at least one free place in the `in` array
    have hroom : ∃ k, 32 - ls.length = k + 1 := by
      rcases hlen with h | ⟨b, hb1, hb2, hb3⟩
      · exact absurd h hz
      · refine ⟨32 - ls.length - 1, ?_⟩
        have hnot : b ∉ ls := by
          intro hm
          obtain ⟨e, he, h1⟩ := (hmem b).1 hm
          exact hb3 e (by simpa using he) h1
        have hb := nodup_bound 32 ((b :: ls).map (· - 1)) (by
          have hn2 : (b :: ls).Nodup := List.nodup_cons.2 ⟨hnot, hnd2⟩
          rw [List.Nodup, List.pairwise_map]
          have hp2 : ∀ x ∈ b :: ls, x ≠ 0 := by
            intro x hx
            rcases List.mem_cons.1 hx with rfl | hx
            · omega
            · obtain ⟨e, he, h1⟩ := (hmem x).1 hx
              have := (I.good e he).2; omega
          refine List.Pairwise.imp_of_mem ?_ hn2
          intro x y hx hy hxy
          have := hp2 x hx
          have := hp2 y hy
          omega) (by
          intro x hx
          obtain ⟨y, hy, rfl⟩ := List.mem_map.1 hx
          rcases List.mem_cons.1 hy with rfl | hy
          · omega
          · obtain ⟨e, he, h1⟩ := (hmem y).1 hy
            have := (I.good e he).1.2
            have := (I.good e he).2
            omega)
        simp at hb; omega
    obtain ⟨k, hk⟩ := hroom
    have htail : ∀ fuel, searchLoop h t (addrOf m) fuel (List.replicate (k + 1) 0) = .ok none := by
      intro fuel; rw [List.replicate_succ, searchLoop]; simp
    have hall : ∀ e ∈ es, e.2.len ∈ ls := fun e he => (hmem _).2 ⟨e, by simpa using he, rfl⟩
    have hrev : ∀ e, e ∈ es.reverse ↔ e ∈ es := fun e => by simp
    -- the result does not depend on the fuel
    have hrun : ∃ r, (∀ fuel, es.length < fuel → search h t (addrOf m) fuel = .ok r) ∧ (r = none ↔ ∀ e ∈ es, ¬ Spec.Contains e.2 m) ∧ (∀ i, r = some i → ∃ e ∈ es, e.1 = i ∧ Spec.Contains e.2 m) := by
      have hmono : ∀ n, Le (search h t (addrOf m) n) (search h t (addrOf m) (n + 1)) := by
        intro n
        rw [search, search, I.any]
        simp only
        have hw : ∀ (n : Nat) (hd : Option Nat), Le (walk h (addrOf m) n hd) (walk h (addrOf m) (n + 1) hd) := by
          intro n
          induction n with
          | zero => intro hd; exact Le.ub _
          | succ n ihn =>
              intro hd
              cases hd with
              | none => exact Le.refl _
              | some i =>
                  rw [walk, walk]
                  cases h i with
                  | none => exact Le.ub _
                  | some nd => exact Le.ite (fun _ => Le.refl _) (fun _ => ihn _)
        generalize t.inn = l
        induction l with
        | nil => exact Le.ub _
        | cons b bs ihb =>
            rw [searchLoop, searchLoop]
            refine Le.ite (fun _ => Le.refl _) (fun _ => Le.bind (Le.refl _) (fun mask => Le.bind (Le.refl _) (fun e => ?_)))
            cases e with
            | none => exact Le.ub _
            | some s =>
                refine Le.bind (Le.refl _) (fun hd => Le.bind (hw n hd) (fun r => ?_))
                cases r with
                | none => exact ihb
                | some _ => exact Le.refl _
      have base : ∃ r, search h t (addrOf m) (es.length + 1) = .ok r ∧ (r = none ↔ ∀ e ∈ es, ¬ Spec.Contains e.2 m) ∧ (∀ i, r = some i → ∃ e ∈ es, e.1 = i ∧ Spec.Contains e.2 m) := by
        have hs : search h t (addrOf m) (es.length + 1) = searchLoop h t (addrOf m) (es.length + 1) (ls ++ List.replicate (k + 1) 0) := by
          rw [search, I.any]; simp only; rw [hin, hk]
        rcases searchLoop_spec I vm (fuel := es.length + 1) (by simp) (List.replicate (k + 1) 0) ls (fun b hb => (hmem b).1 hb) with ⟨i, q1, e, he, q2, q3⟩ | ⟨q1, q2⟩
        · refine ⟨some i, by rw [hs, q1], ⟨by simp, fun hn => absurd q3 (hn e ((hrev e).1 he))⟩, fun j hj => ?_⟩
          cases hj
          exact ⟨e, (hrev e).1 he, q2, q3⟩
        · refine ⟨none, by rw [hs, q1, htail], ⟨fun _ e he => q2 e ((hrev e).2 he) (hall e he), fun _ => rfl⟩, by simp⟩
      obtain ⟨r, hr, hr2⟩ := base
      refine ⟨r, fun fuel hf => ?_, hr2⟩
      obtain ⟨j, rfl⟩ : ∃ j, fuel = es.length + 1 + j := ⟨fuel - (es.length + 1), by omega⟩
      clear hf
      induction j with
      | zero => exact hr
      | succ j ihj => exact hmono _ _ ihj
    obtain ⟨r, hr1, hr2⟩ := hrun
    exact ⟨r, ⟨es.length + 1, fun fuel hf => hr1 fuel (by omega)⟩, hr2⟩

/-- Violation of C24: once networks of all 32 prefix lengths are in the table, every search that finds nothing reads past the `in` array. -/
theorem c24_full_table (slots size : Nat) (hsz : (init size).sz ≤ slots) (h0 : Heap) (es : List Entry) (hv : ∀ e ∈ es, e.2.Valid) (hnd : (es.map (·.1)).Nodup)
    (hpos : ∀ e ∈ es, e.2.len ≠ 0) (hfull : ∀ b, 0 < b → b ≤ 32 → ∃ e ∈ es, e.2.len = b) (m : Net) (vm : m.Valid) (hmiss : ∀ e ∈ es, ¬ Spec.Contains e.2 m) :
    ∃ h t, addAll slots h0 (init size) es = .ok (h, t) ∧ ∀ fuel, es.length < fuel → search h t (addrOf m) fuel = .ub := by
  obtain ⟨h, t, e1, p1, _⟩ := addAll_spec es h0 (init size) [] (inv_init h0 size) hsz hv hnd (by simp)
  have I := p1 hpos
  rw [List.append_nil] at I
  obtain ⟨ls, hin, hls, hnd2, hmem⟩ := I.lens
  have hl32 : ls.length = 32 := by
    have := cover_bound 32 (ls.map (· - 1)) (fun b hb => List.mem_map.2 ⟨b + 1, (hmem _).2 (by
      obtain ⟨e, he, h1⟩ := hfull (b + 1) (by omega) (by omega)
      exact ⟨e, by simpa using he, h1⟩), by simp⟩)
    simp at this; omega
  refine ⟨h, t, e1, fun fuel hf => ?_⟩
  rcases searchLoop_spec I vm (fuel := fuel) (by simpa using hf) [] ls (fun b hb => (hmem b).1 hb) with ⟨i, q1, e, he, q2, q3⟩ | ⟨q1, q2⟩
  · exact absurd q3 (hmiss e (by simpa using he))
  · rw [search, I.any]
    simp only
    rw [hin, hl32]
    exact q1

/-- The situation of `c24_full_table` is reachable: 0.0.0.0/1, ..., 0.0.0.0/32, and a search for 255.255.255.255. -/
def fullTable : List Entry := (List.range 32).map fun i => (i, ⟨0, i + 1⟩)

example : (∀ e ∈ fullTable, e.2.Valid) ∧ (fullTable.map (·.1)).Nodup ∧ (∀ e ∈ fullTable, e.2.len ≠ 0) ∧ (∀ b, 0 < b → b ≤ 32 → ∃ e ∈ fullTable, e.2.len = b) ∧
    (⟨0xFFFFFFFF, 32⟩ : Net).Valid ∧ ∀ e ∈ fullTable, ¬ Spec.Contains e.2 ⟨0xFFFFFFFF, 32⟩ := by
  refine ⟨by decide +kernel, by decide +kernel, by decide +kernel, fun b h1 h2 => ⟨(b - 1, ⟨0, b⟩), List.mem_map.2 ⟨b - 1, by simp; omega, by simp; omega⟩, rfl⟩, by decide +kernel, by decide +kernel⟩

/-- Violation of C24: adding the same node twice (zt_ipv4_tbl_add_node) links it to itself, and a search that does not match it never ends. -/
theorem add_twice_loops (size : Nat) (n : Net) (v : n.Valid) (hl : 0 < n.len) (m : Net) (vm : m.Valid) (hmiss : ¬ Spec.Contains n m)
    (hkey : ((addrOf m).addr &&& (2 ^ 32 - 2 ^ (32 - n.len))) &&& ((init size).sz - 1) = (addrOf n).addr &&& ((init size).sz - 1)) (h0 : Heap) :
    ∃ h1 t1 h2 t2, addNode (init size).sz (nodeInit h0 7 (addrOf n)) (init size) 7 = .ok (h1, t1) ∧ addNode (init size).sz h1 t1 7 = .ok (h2, t2) ∧
      ∀ fuel, search h2 t2 (addrOf m) fuel = .ub := by
  have hb32 : n.len ≤ 32 := v.2
  have hsz : 0 < (init size).sz := (inv_init h0 size).szpos
  have hk := and_lt (addrOf n).addr (init size).sz hsz
  have hnz : n.len ≠ 0 := by omega
  have hbl : (addrOf n).bitlen = n.len := rfl
  obtain ⟨sz, hinit⟩ : ∃ sz, init size = ⟨List.replicate 32 none, 0 :: List.replicate 31 0, sz, none⟩ := ⟨_, rfl⟩
  rw [hinit] at hkey hsz hk
  simp only at hkey hsz hk
  rw [hinit]
  simp only
  generalize hkk : (addrOf n).addr &&& (sz - 1) = key at *
  have hself : nodeInit h0 7 (addrOf n) 7 = some ⟨none, addrOf n⟩ := by simp [nodeInit, upd]
  -- the two additions
  have hA : addNode sz (nodeInit h0 7 (addrOf n)) ⟨List.replicate 32 none, 0 :: List.replicate 31 0, sz, none⟩ 7 =
      .ok (nodeInit h0 7 (addrOf n), ⟨(List.replicate 32 none).set (n.len - 1) (some ((List.replicate sz none).set key (some 7))), n.len :: List.replicate 31 0, sz, none⟩) := by
    rw [addNode, hself]
    simp only [hbl, if_neg hnz, hkk]
    rw [getSlots, rd_lt (by simp; omega)]
    simp only [Outcome.ok_bind, List.getElem_replicate]
    rw [if_pos (Nat.le_refl _)]
    simp only [Outcome.pure_eq, Outcome.ok_bind]
    rw [rd_lt (by simpa using hk)]
    simp only [Outcome.ok_bind, List.getElem_replicate, link]
    rw [wr_lt (by simpa using hk)]
    simp only [Outcome.ok_bind]
    rw [wr_lt (by simp; omega)]
    simp only [Outcome.ok_bind, inLoop, if_true, Bool.false_eq_true, if_false]
    rw [wr_lt (by simp)]
    rfl
  have hB : addNode sz (nodeInit h0 7 (addrOf n)) ⟨(List.replicate 32 none).set (n.len - 1) (some ((List.replicate sz none).set key (some 7))), n.len :: List.replicate 31 0, sz, none⟩ 7 =
      .ok (upd (nodeInit h0 7 (addrOf n)) 7 ⟨some 7, addrOf n⟩,
        ⟨(List.replicate 32 none).set (n.len - 1) (some ((List.replicate sz none).set key (some 7))), n.len :: List.replicate 31 0, sz, none⟩) := by
    rw [addNode, hself]
    simp only [hbl, if_neg hnz, hkk]
    rw [getSlots, rd_lt (by simp; omega)]
    simp only [Outcome.ok_bind, List.getElem_set_self, Outcome.pure_eq]
    rw [rd_lt (by simpa using hk)]
    simp only [Outcome.ok_bind, List.getElem_set_self, link]
    rw [wr_lt (by simpa using hk)]
    simp only [Outcome.ok_bind]
    rw [wr_lt (by simp; omega)]
    simp only [Outcome.ok_bind, inLoop, if_neg hnz, if_true, List.set_set]
  refine ⟨_, _, _, _, hA, hB, fun fuel => ?_⟩
  have hcmp : addrCmp (addrOf n) (addrOf m) = false := by
    cases hc : addrCmp (addrOf n) (addrOf m)
    · rfl
    · exact absurd ((cmp_iff n m v.2 vm.2).1 hc) hmiss
  have hw : ∀ fuel, walk (upd (nodeInit h0 7 (addrOf n)) 7 ⟨some 7, addrOf n⟩) (addrOf m) fuel (some 7) = .ub := by
    intro fuel
    induction fuel with
    | zero => rfl
    | succ f ih =>
        have hg : upd (nodeInit h0 7 (addrOf n)) 7 ⟨some 7, addrOf n⟩ 7 = some ⟨some 7, addrOf n⟩ := by simp [upd]
        rw [walk, hg]
        simp only [hcmp, Bool.false_eq_true, if_false]
        exact ih
  rw [search]
  simp only
  rw [searchLoop, if_neg hnz, rd_eq_ok.2 (netmask_eq n.len (by omega))]
  simp only [Outcome.ok_bind, hkey]
  rw [rd_lt (by simp; omega)]
  simp only [Outcome.ok_bind, List.getElem_set_self]
  rw [rd_lt (by simpa using hk)]
  simp only [Outcome.ok_bind, List.getElem_set_self, hw]
  rfl

/-- The hypotheses of `add_twice_loops`: network 10.0.0.0/8, address 11.0.0.0, table of 128 slots. -/
example : (⟨0x0A000000, 8⟩ : Net).Valid ∧ (⟨0x0B000000, 32⟩ : Net).Valid ∧ ¬ Spec.Contains ⟨0x0A000000, 8⟩ ⟨0x0B000000, 32⟩ ∧
    ((addrOf ⟨0x0B000000, 32⟩).addr &&& (2 ^ 32 - 2 ^ (32 - 8))) &&& ((init 0).sz - 1) = (addrOf ⟨0x0A000000, 8⟩).addr &&& ((init 0).sz - 1) := by decide +kernel

/-- Finding: zt_mem_pool_get finds pools by name among all pools of the process, so a second, larger table gets blocks of the first table's pool; its
first addition clears more slots than the block has. -/
theorem second_table_overflows (slots size : Nat) (h : slots < (init size).sz) (h0 : Heap) (n : Net) (v : n.Valid) (hl : 0 < n.len) (id : Nat) :
    add slots h0 (init size) id n.ip n.len = .ub := by
  have hany : (init size).any = none := rfl
  have hself : nodeInit h0 id (addrOf n) id = some ⟨none, addrOf n⟩ := by simp [nodeInit, upd]
  have hb32 : n.len ≤ 32 := v.2
  have hget : getSlots slots (init size) (n.len - 1) = .ub := by
    have hr : rd (init size).tbl (n.len - 1) = .ok none := by
      have : (init size).tbl = List.replicate 32 none := rfl
      rw [this, rd_lt (by simp; omega), List.getElem_replicate]
    rw [getSlots, hr]
    simp only [Outcome.ok_bind]
    rw [if_neg (by omega)]
  rw [add, hany, mkAddr_eq v]
  simp only [Outcome.ok_bind]
  rw [addNode, hself]
  simp only [show (addrOf n).bitlen = n.len from rfl, if_neg (show ¬ n.len = 0 by omega), hget]
  rfl

end ZT.Ipv4
