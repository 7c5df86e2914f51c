import Verif.PtrArray.Own
import Verif.Cstr.Split

/-!
# C118: the memory of lists of strings (zt_cstr.c 899-1005)

zt_cstr_split, zt_cstr_cut and zt_cstr_tok with the heap of Verif.Array.Own: the array, the working copy and the tokens are blocks. strdup may return NULL: `fails i` says whether the `i`-th call does (the first, 0, makes
the working copy). zt_ptr_array_init does not fail (zt_malloc.c 21-31).
-/

namespace ZT.Cstr.Own

open ZT.Arr.Own ZT.PtrArray ZT.PtrArray.Own

/-! ## Model -/

/-- strdup: the pointer, NULL if it fails. -/
def strdupM (fails : Nat → Bool) (i : Nat) (h : Heap) (t : List Byte) : Ptr × Heap := if fails i then (0, h) else ((h.alloc (t ++ [0])).1 + 1, (h.alloc (t ++ [0])).2)

/-- zt_cstr.c 925, 958, 993, 1001: `zt_ptr_array_add(array, strdup(t))`. -/
def dupAdd (junk : Nat → Ptr) (fails : Nat → Bool) (i : Nat) (h : Heap) (m : PAM) (t : List Byte) : Outcome (Int × PAM × Heap) := addM junk (strdupM fails i h t).2 m (strdupM fails i h t).1

/-- zt_cstr.c 926-928, 959-961, 994-996: the way out when the array could not grow. -/
def giveUp (h : Heap) (m : PAM) (copy : Nat) : Outcome (Option PAM × Heap) := freeM h m 1 >>= fun h => h.free copy >>= fun h => .ok (none, h)

/-- zt_cstr.c 932-934, 965-966, 1002-1004: the copy is freed and the array returned. -/
def finish (copy : Nat) (r : Option PAM × Heap) : Outcome (Option PAM × Heap) :=
  match r.1 with
  | none => .ok r
  | some m => r.2.free copy >>= fun h => .ok (some m, h)

/-- zt_cstr.c 924-930: the loop. `rest` is the part of the copy strtok_r has not seen; the NULs it writes behind tokens are not read again and not kept here. -/
def splitLoopM (junk : Nat → Ptr) (fails : Nat → Bool) (delim : List Byte) (copy : Nat) : (fuel i : Nat) → Heap → PAM → List Byte → Outcome (Option PAM × Heap)
  | 0, _, _, _, _ => .ub
  | fuel + 1, i, h, m, rest =>
      h.load copy >>= fun _ =>
      match strtok delim rest with
      | none => .ok (some m, h)
      | some (t, rest) => dupAdd junk fails i h m t >>= fun r => if r.1 < 0 then giveUp r.2.2 r.2.1 copy else splitLoopM junk fails delim copy fuel (i + 1) r.2.2 r.2.1 rest

/-- zt_cstr.c 920-936: the part of zt_cstr_split behind the check for NULL. -/
def splitM (junk : Nat → Ptr) (fails : Nat → Bool) (h : Heap) (str delim : List Byte) : Outcome (Option PAM × Heap) :=
  strlen str >>= fun n =>
  strlen delim >>= fun _ =>
  let a := initM junk h true
  let c := strdupM fails 0 a.2 (cstr str)
  if c.1 = 0 then .ub
  else splitLoopM junk fails (cstr delim) (c.1 - 1) (n + 1) 1 c.2 a.1 (cstr str) >>= fun r => finish (c.1 - 1) r

/-- zt_cstr.c 908-936 `zt_cstr_split` -/
def splitAll (junk : Nat → Ptr) (fails : Nat → Bool) (h : Heap) (str delim : Option (List Byte)) : Outcome (Option PAM × Heap) :=
  match str, delim with
  | some str, some delim => splitM junk fails h str delim
  | _, _ => .ok (none, h)

/-- zt_cstr.c 951-963: the loop, on the copy. -/
def cutLoopM (junk : Nat → Ptr) (fails : Nat → Bool) (delim : Byte) (keep copy : Nat) : (fuel i : Nat) → Heap → PAM → (at_ : Nat) → Outcome (Option PAM × Heap)
  | 0, _, _, _, _ => .ub
  | fuel + 1, i, h, m, at_ =>
      h.load copy >>= fun c =>
      ptr c at_ >>= fun p =>
      strchr p delim >>= fun r =>
      match r with
      | none => .ok (some m, h)
      | some k =>
          rd c (at_ + k + 1) >>= fun x =>
          if x = 0 then .ok (some m, h)
          else
            ptr c (((at_ + k + 1 : Nat) : Int) - keep) >>= fun q =>
            dupAdd junk fails i h m (cstr q) >>= fun r => if r.1 < 0 then giveUp r.2.2 r.2.1 copy else cutLoopM junk fails delim keep copy fuel (i + 1) r.2.2 r.2.1 (at_ + k + 1)

/-- zt_cstr.c 938-967 `zt_cstr_cut` -/
def cutM (junk : Nat → Ptr) (fails : Nat → Bool) (h : Heap) (str : List Byte) (delim : Int) (keep_delim : Bool) : Outcome (Option PAM × Heap) :=
  strlen str >>= fun n =>
  let a := initM junk h true
  let c := strdupM fails 0 a.2 (cstr str)
  if c.1 = 0 then .ub
  else cutLoopM junk fails (toChar delim) (if keep_delim then 1 else 0) (c.1 - 1) (n + 2) 1 c.2 a.1 0 >>= fun r => finish (c.1 - 1) r

/-- zt_cstr.c 1001: the last token; the result of the addition is not used. -/
def lastTok (junk : Nat → Ptr) (fails : Nat → Bool) (i : Nat) (h : Heap) (m : PAM) (t : List Byte) : Outcome (Option PAM × Heap) := dupAdd junk fails i h m t >>= fun r => .ok (some r.2.1, r.2.2)

/-- zt_cstr.c 986-1001: the loop on the copy, and the last token. -/
def tokLoopM (junk : Nat → Ptr) (fails : Nat → Bool) (delim : Byte) (copy : Nat) : (fuel i : Nat) → Heap → PAM → Outcome (Option PAM × Heap)
  | 0, _, _, _ => .ub
  | fuel + 1, i, h, m =>
      h.load copy >>= fun c =>
      strrchr c delim >>= fun r =>
      match r with
      | some 0 => lastTok junk fails i h m (cstr c)
      | none => lastTok junk fails i h m (cstr c)
      | some k =>
          dupAdd junk fails i h m (cstr c) >>= fun r =>
          if r.1 < 0 then giveUp r.2.2 r.2.1 copy
          else wr c k 0 >>= fun c => r.2.2.save copy c >>= fun h => tokLoopM junk fails delim copy fuel (i + 1) h r.2.1

/-- zt_cstr.c 982-984: a delimiter at the end of the copy is dropped. -/
def chopM (h : Heap) (str : List Byte) (n copy : Nat) (delim : Int) : Outcome Heap :=
  rdI str ((n : Int) - 1) >>= fun c => if schar c = delim then h.load copy >>= fun m => wr m (n - 1) 0 >>= fun m => h.save copy m else .ok h

/-- zt_cstr.c 969-1005 `zt_cstr_tok` -/
def tokM (junk : Nat → Ptr) (fails : Nat → Bool) (h : Heap) (str : List Byte) (delim : Int) : Outcome (Option PAM × Heap) :=
  strlen str >>= fun n =>
  let a := initM junk h true
  let c := strdupM fails 0 a.2 (cstr str)
  if c.1 = 0 then .ub
  else chopM c.2 str n (c.1 - 1) delim >>= fun h => tokLoopM junk fails (toChar delim) (c.1 - 1) (n + 1) 1 h a.1 >>= fun r => finish (c.1 - 1) r

/-- zt_cstr.c 899-907 `zt_cstr_split_free`, `zt_cstr_cut_free` -/
def listFree (h : Heap) (m : PAM) : Outcome Heap := freeM h m 1

/-! ## Specification -/

/-- The tokens for which there was memory: the calls of strdup are numbered from `i` on. -/
def kept (fails : Nat → Bool) : Nat → List (List Byte) → List (List Byte)
  | _, [] => []
  | i, t :: ts => if fails i then kept fails (i + 1) ts else t :: kept fails (i + 1) ts

/-- The list `a` of the strings `ts`, and nothing else, is new in `h'`: every string is a block of its own; releasing the list gives exactly the old heap back. -/
structure Lists (h h' : Heap) (a : PAM) (ts : List (List Byte)) : Prop where
  strings : ∃ ids : List Nat, (∀ (i : Nat) (t : List Byte), ts[i]? = some t → ∃ b, ids[i]? = some b ∧ getIdx a.pa i = .ok (b + 1) ∧ h'.cont b = t ++ [0]) ∧ ids.length = ts.length ∧
    h'.live.Nodup ∧ h'.live.Perm (a.self :: a.block :: (ids ++ h.live))
  count : a.pa.count = ts.length
  others : ∀ b ∈ h.live, h'.cont b = h.cont b
  free : ∃ h'', listFree h' a = .ok h'' ∧ h''.live.Perm h.live ∧ ∀ b ∈ h.live, h''.cont b = h.cont b

/-! ## Lemmas -/

theorem kept_all {fails : Nat → Bool} : ∀ (ts : List (List Byte)) (i : Nat), (∀ k, i ≤ k → k < i + ts.length → fails k = false) → kept fails i ts = ts := by
  intro ts
  induction ts with
  | nil => intro i _; rfl
  | cons t ts ih =>
      intro i hf
      rw [kept, hf i (Nat.le_refl _) (by simp), ih (i + 1) (fun k h1 h2 => hf k (by omega) (by simp; omega))]
      rfl

/-- A block beside the ones of an object. -/
theorem _root_.ZT.Arr.Own.Upd.beside {h h' : Heap} {o o' : List Nat} (u : Upd h o h' o' []) {x : Nat} (hx : x ∈ h.live) (hn : x ∉ o) : Upd h (x :: o) h' (x :: o') [] := by
  obtain ⟨k1, k2, k3⟩ := u.keep x hx hn
  refine ⟨fun rest p => ?_, u.good, fun b hb hnb => ?_, u.mono, u.fresh⟩
  · have p2 : h.live.Perm (o ++ x :: rest) := p.trans (List.perm_middle.symm)
    exact (u.perm _ p2).trans (by simp)
  · obtain ⟨a1, a2, a3⟩ := u.keep b hb (fun hm => hnb (List.mem_cons_of_mem _ hm))
    refine ⟨a1, fun hm => ?_, a3⟩
    rcases List.mem_cons.1 hm with e | hm
    · exact hnb (by simp [e])
    · exact a2 hm

/-- The array and the copy, in use. -/
structure Work (h : Heap) (m : PAM) (ids : List Nat) (copy : Nat) : Prop where
  good : Good h
  owns : Owns h m ids
  live : copy ∈ h.live
  apart : copy ∉ m.self :: m.block :: ids

/-- From one state of the loop to another: `ts` have been added. -/
structure Adds (h : Heap) (m : PAM) (ids : List Nat) (copy : Nat) (ts : List (List Byte)) (h' : Heap) (m' : PAM) (ids' : List Nat) : Prop where
  work : Work h' m' ids' copy
  upd : Upd h (copy :: m.self :: m.block :: ids) h' (copy :: m'.self :: m'.block :: ids') []
  cont : ids'.map h'.cont = ids.map h.cont ++ ts.map (· ++ [0])

theorem Adds.refl {h : Heap} {m : PAM} {ids : List Nat} {copy : Nat} (w : Work h m ids copy) : Adds h m ids copy [] h m ids := ⟨w, Upd.refl w.good _, by simp⟩

theorem Adds.trans {h h1 h2 : Heap} {m m1 m2 : PAM} {ids ids1 ids2 : List Nat} {copy : Nat} {ts us : List (List Byte)} (a : Adds h m ids copy ts h1 m1 ids1) (b : Adds h1 m1 ids1 copy us h2 m2 ids2) :
    Adds h m ids copy (ts ++ us) h2 m2 ids2 := ⟨b.work, by simpa using a.upd.trans b.upd, by rw [b.cont, a.cont]; simp⟩

/-- One addition. -/
theorem dupAdd_ok {h : Heap} {m : PAM} {ids : List Nat} {copy : Nat} (w : Work h m ids copy) (junk : Nat → Ptr) (fails : Nat → Bool) (i : Nat) (t : List Byte) (hs : m.pa.size + 32 < 2 ^ 31) :
    ∃ m' h' ids', dupAdd junk fails i h m t = .ok (0, m', h') ∧ Adds h m ids copy (kept fails i [t]) h' m' ids' ∧ m'.pa.size ≤ m.pa.size + 32 ∧ h'.cont copy = h.cont copy := by
  obtain ⟨G, O, hl, hn⟩ := w
  unfold dupAdd strdupM
  cases hf : fails i with
  | true =>
      refine ⟨m, h, ids, if_pos rfl, ?_, by omega, rfl⟩
      rw [kept, hf]
      exact Adds.refl ⟨G, O, hl, hn⟩
  | false =>
      simp only [Bool.false_eq_true, if_false]
      have u0 := alloc_upd G (t ++ [0]) (m.self :: m.block :: ids)
      have hfresh : (h.alloc (t ++ [0])).1 ∉ m.self :: m.block :: ids := fun hm => Nat.lt_irrefl _ (G.lt _ (O.live _ hm))
      have O1 : Owns (h.alloc (t ++ [0])).2 m ids := ⟨O.holds, O.nodup, fun b hb => List.mem_cons_of_mem _ (O.live b hb)⟩
      obtain ⟨m', h', e, O', u, s, _, k⟩ := addM_owns u0.good O1 junk (alloc_mem h (t ++ [0])) hfresh hs
      have uu : Upd h (m.self :: m.block :: ids) h' (m'.self :: m'.block :: (ids ++ [(h.alloc (t ++ [0])).1])) [] := by simpa using u0.trans u
      obtain ⟨k1, k2, k3⟩ := uu.keep copy hl hn
      refine ⟨m', h', _, e, ⟨⟨uu.good, O', k1, k2⟩, uu.beside hl hn, ?_⟩, s, k3⟩
      rw [kept, hf, kept, List.map_append]
      simp only [Bool.false_eq_true, if_false, List.map_cons, List.map_nil]
      congr 1
      · refine List.map_congr_left fun b hb => ?_
        rw [k b (by simp [hb])]
        exact if_neg (Nat.ne_of_lt (G.lt b (O.live b (by simp [hb]))))
      · rw [k _ (by simp), alloc_cont]

theorem kept_cons (fails : Nat → Bool) (i : Nat) (t : List Byte) (ts : List (List Byte)) : kept fails i (t :: ts) = kept fails i [t] ++ kept fails (i + 1) ts := by
  rw [kept, kept]
  split <;> simp [kept]

theorem splitLoopM_ok (junk : Nat → Ptr) (fails : Nat → Bool) (delim : List Byte) (copy : Nat) : ∀ (fuel i : Nat) {h : Heap} {m : PAM} {ids : List Nat} (rest : List Byte) (ts : List (List Byte)),
    Work h m ids copy → splitLoop delim fuel rest = .ok ts → m.pa.size + 32 * ts.length < 2 ^ 31 →
    ∃ m' h' ids', splitLoopM junk fails delim copy fuel i h m rest = .ok (some m', h') ∧ Adds h m ids copy (kept fails i ts) h' m' ids' := by
  intro fuel
  induction fuel with
  | zero => intro i h m ids rest ts _ e; cases e
  | succ fuel ih =>
      intro i h m ids rest ts w e hs
      rw [splitLoop] at e
      rw [splitLoopM, load_ok w.live, Outcome.ok_bind]
      cases hk : strtok delim rest with
      | none =>
          rw [hk] at e
          cases e
          exact ⟨m, h, ids, rfl, Adds.refl w⟩
      | some tr =>
          obtain ⟨t, rest'⟩ := tr
          rw [hk] at e
          obtain ⟨ts', e1, e2⟩ := Outcome.bind_eq_ok.1 e
          cases e2
          simp only [List.length_cons] at hs
          obtain ⟨m1, h1, ids1, d1, a1, s1, _⟩ := dupAdd_ok w junk fails i t (by omega)
          obtain ⟨m2, h2, ids2, d2, a2⟩ := ih (i + 1) rest' ts' a1.work e1 (by omega)
          refine ⟨m2, h2, ids2, ?_, by rw [kept_cons]; exact a1.trans a2⟩
          dsimp only
          rw [d1, Outcome.ok_bind, if_neg (show ¬ (0 : Int) < 0 by decide)]
          exact d2

theorem cutLoopM_ok (junk : Nat → Ptr) (fails : Nat → Bool) (delim : Byte) (keep copy : Nat) (c : List Byte) : ∀ (fuel i : Nat) {h : Heap} {m : PAM} {ids : List Nat} (at_ : Nat) (ts : List (List Byte)),
    Work h m ids copy → h.cont copy = c → cutLoop c delim keep fuel at_ = .ok ts → m.pa.size + 32 * ts.length < 2 ^ 31 →
    ∃ m' h' ids', cutLoopM junk fails delim keep copy fuel i h m at_ = .ok (some m', h') ∧ Adds h m ids copy (kept fails i ts) h' m' ids' := by
  intro fuel
  induction fuel with
  | zero => intro i h m ids at_ ts _ _ e; cases e
  | succ fuel ih =>
      intro i h m ids at_ ts w hc e hs
      rw [cutLoop] at e
      rw [cutLoopM, load_ok w.live, Outcome.ok_bind, hc]
      obtain ⟨p, p1, e⟩ := Outcome.bind_eq_ok.1 e
      obtain ⟨r, r1, e⟩ := Outcome.bind_eq_ok.1 e
      rw [p1, Outcome.ok_bind, r1, Outcome.ok_bind]
      cases r with
      | none =>
          cases e
          exact ⟨m, h, ids, rfl, Adds.refl w⟩
      | some k =>
          obtain ⟨x, x1, e⟩ := Outcome.bind_eq_ok.1 e
          dsimp only
          rw [x1, Outcome.ok_bind]
          by_cases hx : x = 0
          · rw [if_pos hx] at e ⊢
            cases e
            exact ⟨m, h, ids, rfl, Adds.refl w⟩
          · rw [if_neg hx] at e ⊢
            obtain ⟨q, q1, e⟩ := Outcome.bind_eq_ok.1 e
            obtain ⟨ts', e1, e2⟩ := Outcome.bind_eq_ok.1 e
            cases e2
            simp only [List.length_cons] at hs
            obtain ⟨m1, h1, ids1, d1, a1, s1, k1⟩ := dupAdd_ok w junk fails i (cstr q) (by omega)
            obtain ⟨m2, h2, ids2, d2, a2⟩ := ih (i + 1) (at_ + k + 1) ts' a1.work (k1.trans hc) e1 (by omega)
            refine ⟨m2, h2, ids2, ?_, by rw [kept_cons]; exact a1.trans a2⟩
            rw [q1, Outcome.ok_bind, d1, Outcome.ok_bind, if_neg (show ¬ (0 : Int) < 0 by decide)]
            exact d2

/-- Writing to the copy. -/
theorem save_work {h : Heap} {m : PAM} {ids : List Nat} {copy : Nat} (w : Work h m ids copy) (c : List Byte) : ∃ h', h.save copy c = .ok h' ∧ h'.cont copy = c ∧ Adds h m ids copy [] h' m ids := by
  obtain ⟨h', e, l, k, o, u⟩ := save_upd w.good w.live c (own := copy :: m.self :: m.block :: ids) (by simp)
  refine ⟨h', e, k, ⟨u.good, ⟨w.owns.holds, w.owns.nodup, fun b hb => by rw [l]; exact w.owns.live b hb⟩, by rw [l]; exact w.live, w.apart⟩, u, ?_⟩
  simp only [List.map_nil, List.append_nil]
  exact List.map_congr_left fun b hb => o b (fun e => w.apart (by rw [← e]; simp [hb]))

theorem tokLoopM_ok (junk : Nat → Ptr) (fails : Nat → Bool) (delim : Byte) (copy : Nat) : ∀ (fuel i : Nat) {h : Heap} {m : PAM} {ids : List Nat} (c : List Byte) (ts : List (List Byte)),
    Work h m ids copy → h.cont copy = c → tokLoop delim fuel c = .ok ts → m.pa.size + 32 * ts.length < 2 ^ 31 →
    ∃ m' h' ids', tokLoopM junk fails delim copy fuel i h m = .ok (some m', h') ∧ Adds h m ids copy (kept fails i ts) h' m' ids' := by
  intro fuel
  induction fuel with
  | zero => intro i h m ids c ts _ _ e; cases e
  | succ fuel ih =>
      intro i h m ids c ts w hc e hs
      have last : m.pa.size + 32 < 2 ^ 31 → ∃ m' h' ids', lastTok junk fails i h m (cstr c) = .ok (some m', h') ∧ Adds h m ids copy (kept fails i [cstr c]) h' m' ids' := fun hs => by
        obtain ⟨m1, h1, ids1, d1, a1, _⟩ := dupAdd_ok w junk fails i (cstr c) hs
        exact ⟨m1, h1, ids1, by rw [lastTok, d1]; rfl, a1⟩
      rw [tokLoop] at e
      rw [tokLoopM, load_ok w.live, Outcome.ok_bind, hc]
      obtain ⟨r, r1, e⟩ := Outcome.bind_eq_ok.1 e
      rw [r1, Outcome.ok_bind]
      match r, e with
      | none, e =>
          cases e
          exact last (by simpa using hs)
      | some 0, e =>
          cases e
          exact last (by simpa using hs)
      | some (k + 1), e =>
          obtain ⟨c', w1, e⟩ := Outcome.bind_eq_ok.1 e
          obtain ⟨ts', e1, e2⟩ := Outcome.bind_eq_ok.1 e
          cases e2
          simp only [List.length_cons] at hs
          obtain ⟨m1, h1, ids1, d1, a1, s1, k1⟩ := dupAdd_ok w junk fails i (cstr c) (by omega)
          obtain ⟨h2, d2, k2, a2⟩ := save_work a1.work c'
          obtain ⟨m3, h3, ids3, d3, a3⟩ := ih (i + 1) c' ts' a2.work k2 e1 (by omega)
          refine ⟨m3, h3, ids3, ?_, ?_⟩
          · show (dupAdd junk fails i h m (cstr c) >>= fun r => if r.1 < 0 then giveUp r.2.2 r.2.1 copy
              else wr c (k + 1) 0 >>= fun c => r.2.2.save copy c >>= fun h => tokLoopM junk fails delim copy fuel (i + 1) h r.2.1) = _
            rw [d1, Outcome.ok_bind, if_neg (show ¬ (0 : Int) < 0 by decide), w1, Outcome.ok_bind]
            show (h1.save copy c' >>= _) = _
            rw [d2, Outcome.ok_bind]
            exact d3
          · rw [kept_cons]
            have := a1.trans (a2.trans a3)
            simpa using this

/-- The array and the copy. -/
theorem start {h : Heap} (G : Good h) (junk : Nat → Ptr) {fails : Nat → Bool} (h0 : fails 0 = false) (s : List Byte) : ∃ copy, strdupM fails 0 (initM junk h true).2 s = (copy + 1, ((initM junk h true).2.alloc (s ++ [0])).2) ∧
    Work ((initM junk h true).2.alloc (s ++ [0])).2 (initM junk h true).1 [] copy ∧ ((initM junk h true).2.alloc (s ++ [0])).2.cont copy = s ++ [0] ∧
    Upd h [] ((initM junk h true).2.alloc (s ++ [0])).2 [copy, (initM junk h true).1.self, (initM junk h true).1.block] [] := by
  obtain ⟨O0, u0⟩ := initM_owns G junk true
  have u1 := alloc_upd u0.good (s ++ [0]) [(initM junk h true).1.self, (initM junk h true).1.block]
  refine ⟨((initM junk h true).2.alloc (s ++ [0])).1, ?_, ⟨u1.good, ⟨O0.holds, O0.nodup, fun b hb => List.mem_cons_of_mem _ (O0.live b hb)⟩, alloc_mem _ _, ?_⟩, alloc_cont _ _, u0.trans u1⟩
  · rw [strdupM, h0]; rfl
  · intro hm
    exact Nat.lt_irrefl _ (u0.good.lt _ (O0.live _ hm))

/-- The end: the copy is freed. -/
theorem finish_ok {h h1 h2 : Heap} {m1 m : PAM} {ids : List Nat} {copy : Nat} {ts : List (List Byte)} (u : Upd h [] h1 [copy, m1.self, m1.block] []) (a : Adds h1 m1 [] copy ts h2 m ids) :
    ∃ h', finish copy (some m, h2) = .ok (some m, h') ∧ Lists h h' m ts := by
  obtain ⟨h', e, c, u3⟩ := free_upd a.work.good a.work.live (m.self :: m.block :: ids)
  have uu : Upd h [] h' (m.self :: m.block :: ids) [] := by simpa using (u.trans a.upd).trans u3
  have hlive : ∀ b ∈ m.self :: m.block :: ids, b ∈ h'.live := fun b hb => by
    have e2 := e
    unfold Heap.free at e2
    rw [if_pos a.work.live] at e2
    cases e2
    exact (List.mem_erase_of_ne (fun (e : b = copy) => a.work.apart (e ▸ hb))).2 (a.work.owns.live b hb)
  have O : Owns h' m ids := ⟨a.work.owns.holds, a.work.owns.nodup, hlive⟩
  have hc : ids.map h'.cont = ts.map (· ++ [0]) := by
    rw [c]; simpa using a.cont
  have hlen : ids.length = ts.length := by simpa using congrArg List.length hc
  have hp : h'.live.Perm ((m.self :: m.block :: ids) ++ h.live) := by simpa using uu.perm h.live (by simp)
  refine ⟨h', by rw [finish]; dsimp only; rw [e]; rfl, ⟨ids, fun i t ht => ?_, hlen, uu.good.nodup, hp⟩, ?_, fun b hb => (uu.keep b hb (by simp)).2.2, ?_⟩
  · have hi : i < ts.length := (List.getElem?_eq_some_iff.1 ht).1
    have hi2 : i < ids.length := by omega
    refine ⟨ids[i], List.getElem?_eq_getElem hi2, ?_, ?_⟩
    · have := (c29_get O.holds).1 i (by simpa using hi2)
      rw [this]; simp
    · have := congrArg (fun l => l[i]?) hc
      simp only [List.getElem?_map, ht, List.getElem?_eq_getElem hi2, Option.map_some, Option.some.injEq] at this
      exact this
  · have := O.holds.count
    simpa [hlen] using this
  · obtain ⟨h'', f1, f2, u4⟩ := freeM_owns uu.good O 1
    refine ⟨h'', f1, ?_, fun b hb => by rw [f2]; exact (uu.keep b hb (by simp)).2.2⟩
    have := u4.perm _ hp
    simpa using this

theorem Tokens.length_le {isDelim : Byte → Prop} {s : List Byte} {ts : List (List Byte)} (h : Tokens isDelim s ts) : ts.length ≤ s.length := by
  induction h with
  | none gap hg => simp
  | last gap t hg ht hne =>
      have := List.length_pos_iff.2 hne
      simp; omega
  | more gap t d s ts hg ht hne hd h ih =>
      simp only [List.length_cons, List.length_append]; omega

theorem cuts_length (d : Byte) (keep : Nat) (s : List Byte) : (cuts d keep s).length ≤ s.length := by
  unfold cuts
  rw [List.length_map]
  refine Nat.le_trans (List.length_filter_le _ _) ?_
  simp

theorem prefixes_length (d : Byte) (s : List Byte) : (prefixes d s).length ≤ s.length + 1 := by
  unfold prefixes
  rw [List.length_cons, List.length_map, List.length_reverse]
  have := List.length_filter_le (fun k => decide (0 < k ∧ s[k]? = some d)) (List.range s.length)
  rw [List.length_range] at this
  omega

/-! ## The three functions -/

/-- C118 (zt_cstr_split): the list has the tokens of the string, in order, except those for which there was no memory; the working copy is freed; nothing else changes, and releasing the list gives the old heap back. -/
theorem c118_split_partial {m s md delim : List Byte} (hm : IsStr m s) (hd : IsStr md delim) {h : Heap} (G : Good h) (junk : Nat → Ptr) {fails : Nat → Bool} (h0 : fails 0 = false) (hs : 32 * s.length + 64 < 2 ^ 31) :
    ∃ a h' ts, splitAll junk fails h (some m) (some md) = .ok (some a, h') ∧ Tokens (· ∈ delim) s ts ∧ Lists h h' a (kept fails 1 ts) ∧ ((∀ k, fails k = false) → kept fails 1 ts = ts) := by
  obtain ⟨ts, e, ht⟩ := splitLoop_ok delim (s.length + 1) s (by omega)
  have htl := Tokens.length_le ht
  obtain ⟨copy, c1, w, c2, u⟩ := start G junk h0 s
  obtain ⟨m', h', ids', l1, l2⟩ := splitLoopM_ok junk fails delim copy (s.length + 1) 1 s ts w e (by show 32 + _ < _; omega)
  obtain ⟨h'', f1, f2⟩ := finish_ok u l2
  refine ⟨m', h'', ts, ?_, ht, f2, fun hf => kept_all ts 1 (fun k _ _ => hf k)⟩
  show splitM junk fails h m md = _
  unfold splitM
  rw [hm.strlen, Outcome.ok_bind, hd.strlen, Outcome.ok_bind, hm.cstr, hd.cstr]
  dsimp only
  rw [c1]
  dsimp only
  rw [if_neg (Nat.succ_ne_zero _), Nat.add_sub_cancel, l1, Outcome.ok_bind, f1]

/-- C118 (zt_cstr_cut), for delimiters other than NUL. -/
theorem c118_cut_partial {m s : List Byte} (hm : IsStr m s) (delim : Int) (hd : toChar delim ≠ 0) (keep : Bool) {h : Heap} (G : Good h) (junk : Nat → Ptr) {fails : Nat → Bool} (h0 : fails 0 = false) (hs : 32 * s.length + 64 < 2 ^ 31) :
    ∃ a h', cutM junk fails h m delim keep = .ok (some a, h') ∧ Lists h h' a (kept fails 1 (cuts (toChar delim) (if keep then 1 else 0) s)) ∧
      ((∀ k, fails k = false) → kept fails 1 (cuts (toChar delim) (if keep then 1 else 0) s) = cuts (toChar delim) (if keep then 1 else 0) s) := by
  have e := c66_cut_partial hm delim hd keep
  rw [cut, hm.strlen, hm.cstr] at e
  have hl := cuts_length (toChar delim) (if keep then 1 else 0) s
  obtain ⟨copy, c1, w, c2, u⟩ := start G junk h0 s
  obtain ⟨m', h', ids', l1, l2⟩ := cutLoopM_ok junk fails (toChar delim) (if keep then 1 else 0) copy (s ++ [0]) (s.length + 2) 1 0 _ w c2 e (by show 32 + _ < _; omega)
  obtain ⟨h'', f1, f2⟩ := finish_ok u l2
  refine ⟨m', h'', ?_, f2, fun hf => kept_all _ 1 (fun k _ _ => hf k)⟩
  unfold cutM
  rw [hm.strlen, Outcome.ok_bind, hm.cstr]
  dsimp only
  rw [c1]
  dsimp only
  rw [if_neg (Nat.succ_ne_zero _), Nat.add_sub_cancel, l1, Outcome.ok_bind, f1]

theorem chop_length (d : Byte) (s : List Byte) : (chop d s).length ≤ s.length := by
  unfold chop
  split <;> simp

/-- C118 (zt_cstr_tok), for strings that are not empty and delimiters other than NUL. -/
theorem c118_tok_partial {m s : List Byte} (hm : IsStr m s) (hne : s ≠ []) (d : Byte) (hd : d ≠ 0) {h : Heap} (G : Good h) (junk : Nat → Ptr) {fails : Nat → Bool} (h0 : fails 0 = false) (hs : 32 * s.length + 64 < 2 ^ 31) :
    ∃ a h', tokM junk fails h m (schar d) = .ok (some a, h') ∧ Lists h h' a (kept fails 1 (prefixes d (chop d s))) ∧ ((∀ k, fails k = false) → kept fails 1 (prefixes d (chop d s)) = prefixes d (chop d s)) := by
  have hl1 := prefixes_length d (chop d s)
  have hl2 := chop_length d s
  have e := c67_tok_partial hm hne d hd
  rw [tok, hm.strlen, Outcome.ok_bind, hm.cstr] at e
  obtain ⟨c, g1, e⟩ := Outcome.bind_eq_ok.1 e
  obtain ⟨cp, g2, e⟩ := Outcome.bind_eq_ok.1 e
  obtain ⟨copy, c1, w, c2, u⟩ := start G junk h0 s
  -- the delimiter at the end
  obtain ⟨h1, k1, k2, k3⟩ : ∃ h1, chopM ((initM junk h true).2.alloc (s ++ [0])).2 m s.length copy (schar d) = .ok h1 ∧ h1.cont copy = cp ∧ Adds ((initM junk h true).2.alloc (s ++ [0])).2 (initM junk h true).1 [] copy [] h1 (initM junk h true).1 [] := by
    unfold chopM
    rw [g1, Outcome.ok_bind]
    by_cases hc : schar c = schar d
    · rw [if_pos hc] at g2 ⊢
      rw [load_ok w.live, Outcome.ok_bind, c2, g2, Outcome.ok_bind]
      exact save_work w cp
    · rw [if_neg hc] at g2 ⊢
      cases g2
      exact ⟨_, rfl, c2, Adds.refl w⟩
  obtain ⟨m', h', ids', l1, l2⟩ := tokLoopM_ok junk fails (toChar (schar d)) copy (s.length + 1) 1 cp _ k3.work k2 e (by show 32 + _ < _; omega)
  obtain ⟨h'', f1, f2⟩ := finish_ok u (by simpa using k3.trans l2)
  refine ⟨m', h'', ?_, f2, fun hf => kept_all _ 1 (fun k _ _ => hf k)⟩
  unfold tokM
  rw [hm.strlen, Outcome.ok_bind, hm.cstr]
  dsimp only
  rw [c1]
  dsimp only
  rw [if_neg (Nat.succ_ne_zero _), Nat.add_sub_cancel, k1, Outcome.ok_bind, l1, Outcome.ok_bind, f1]

/-- No string or no delimiters: NULL, and nothing is allocated. -/
theorem c118_split_null (junk : Nat → Ptr) (fails : Nat → Bool) (h : Heap) (s : Option (List Byte)) : splitAll junk fails h none s = .ok (none, h) ∧ splitAll junk fails h s none = .ok (none, h) := by
  cases s <;> exact ⟨rfl, rfl⟩

/-- Violation: without memory for the working copy, each of the functions uses NULL (for every string). -/
theorem c118_copy_violation {m s : List Byte} (hm : IsStr m s) {md delim : List Byte} (hd : IsStr md delim) (h : Heap) (junk : Nat → Ptr) {fails : Nat → Bool} (h0 : fails 0 = true) (d : Int) (keep : Bool) :
    splitAll junk fails h (some m) (some md) = .ub ∧ cutM junk fails h m d keep = .ub ∧ tokM junk fails h m d = .ub := by
  refine ⟨?_, ?_, ?_⟩
  · show splitM junk fails h m md = _
    rw [splitM, hm.strlen, hd.strlen]
    simp only [Outcome.ok_bind, strdupM, h0, if_true]
  · rw [cutM, hm.strlen]
    simp only [Outcome.ok_bind, strdupM, h0, if_true]
  · rw [tokM, hm.strlen]
    simp only [Outcome.ok_bind, strdupM, h0, if_true]

theorem kept_short {fails : Nat → Bool} : ∀ (ts : List (List Byte)) (i k : Nat), i ≤ k → k < i + ts.length → fails k = true → (kept fails i ts).length < ts.length := by
  have le : ∀ (ts : List (List Byte)) (i : Nat), (kept fails i ts).length ≤ ts.length := by
    intro ts
    induction ts with
    | nil => intro i; simp [kept]
    | cons t ts ih =>
        intro i
        have := ih (i + 1)
        rw [kept]; split <;> simp <;> omega
  intro ts
  induction ts with
  | nil => intro i k h1 h2; simp at h2; omega
  | cons t ts ih =>
      intro i k h1 h2 hf
      simp only [List.length_cons] at h2 ⊢
      rw [kept]
      by_cases hk : k = i
      · subst hk
        rw [if_pos hf]
        have := le ts (k + 1)
        omega
      · have := ih (i + 1) k (by omega) (by omega) hf
        split
        · omega
        · simp only [List.length_cons]; omega

/-- Violation: if there is no memory for one of the tokens, it is left out without notice: zt_cstr_split returns a list that is too short. For every string and every token. -/
theorem c118_token_violation {m s md delim : List Byte} (hm : IsStr m s) (hd : IsStr md delim) {h : Heap} (G : Good h) (junk : Nat → Ptr) {fails : Nat → Bool} (h0 : fails 0 = false) (hs : 32 * s.length + 64 < 2 ^ 31)
    {ts : List (List Byte)} (ht : Tokens (· ∈ delim) s ts) {k : Nat} (hk : k < ts.length) (hf : fails (k + 1) = true) :
    ∃ a h', splitAll junk fails h (some m) (some md) = .ok (some a, h') ∧ a.pa.count < ts.length := by
  obtain ⟨a, h', us, e, hu, l, _⟩ := c118_split_partial hm hd G junk h0 hs
  cases hu.unique ht
  refine ⟨a, h', e, ?_⟩
  rw [l.count]
  exact kept_short _ 1 (k + 1) (by omega) (by omega) hf

/-! ## Cases -/

/-- ",a,,bc" at ",": two tokens; the second without memory. -/
def demoStr : List Byte := [44, 97, 44, 44, 98, 99, 0]
def demoRes (fails : Nat → Bool) : Option (List (List Byte)) :=
  match splitAll (fun _ => 7) fails ⟨[3], fun _ => [9], 4⟩ (some demoStr) (some [44, 0]) with
  | .ok (some a, h) => some ((a.pa.arr.take a.pa.count).map fun p => h.cont (p - 1))
  | _ => none

example : demoRes (fun _ => false) = some [[97, 0], [98, 99, 0]] := by decide +kernel
example : demoRes (fun i => i == 2) = some [[97, 0]] := by decide +kernel
example : IsStr demoStr [44, 97, 44, 44, 98, 99] := ⟨by decide, [], rfl⟩

end ZT.Cstr.Own
