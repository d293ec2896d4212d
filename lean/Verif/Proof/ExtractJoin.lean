import Verif.Proof.ExtractMem

/-!
# The collecting loop
-/

namespace Verif.Extract

section
variable {P : Plan}

theorem lay_copies {tab : Nat → List Nat} {d : Nat → Int} {i p : Nat} (hi : i < P.N) (hp : p < P.N)
    (hip : i ≠ p) (di : d i = 0) (dp : d p = 0) (ks : List Nat) (hks : ∀ k ∈ ks, k < 4) :
    ∀ {m : Mem} {L : Nat → Nat → Nat} {S : Nat → Nat → List Pt}, Lay P m L S d tab → Fits P S tab →
      Exact P L S → ((S 0 p).length + (ks.flatMap fun k => S k i).length ≤ P.cap 0 p) →
      ∃ m' L', ks.foldlM (copySeg P.size (P.off i) (P.off p)) m = some m' ∧
        Lay P m' L' (fun l j => if l = 0 ∧ j = p then S 0 p ++ (ks.flatMap fun k => S k i) else S l j)
          d tab ∧
        Fits P (fun l j => if l = 0 ∧ j = p then S 0 p ++ (ks.flatMap fun k => S k i) else S l j)
          tab ∧
        Exact P L'
          (fun l j => if l = 0 ∧ j = p then S 0 p ++ (ks.flatMap fun k => S k i) else S l j) := by
  induction ks with
  | nil =>
    intro m L S lay fit ex _
    have e2 : (fun l j => if l = 0 ∧ j = p then S 0 p ++ (([] : List Nat).flatMap fun k => S k i)
        else S l j) = S := by
      funext l j; split
      · rename_i h; rw [h.1, h.2]; simp
      · rfl
    refine ⟨m, L, rfl, ?_⟩
    rw [e2]
    exact ⟨lay, fit, ex⟩
  | cons k ks ih =>
    intro m L S lay fit ex room
    rw [List.flatMap_cons, List.length_append] at room
    have hk := hks k (by simp)
    obtain ⟨m1, e1, lay1⟩ := lay_copy lay fit ex hi hp hk hip di dp (by omega)
    have fit1 : Fits P (fun l j => if l = 0 ∧ j = p then S 0 p ++ S k i else S l j) tab := by
      refine ⟨?_, fit.table⟩
      intro j hj l hl
      split
      · rename_i h; rw [h.1, h.2, List.length_append]; omega
      · exact fit.pts j hj l hl
    have ex1 : Exact P (fun l j => if l = 0 ∧ j = p then L 0 p + (S k i).length else L l j)
        (fun l j => if l = 0 ∧ j = p then S 0 p ++ S k i else S l j) := by
      intro j hj l hl
      dsimp only
      split
      · rename_i h; rw [List.length_append, ex p hp 0 (by omega)]
      · exact ex j hj l hl
    have hSi : ∀ k', (if k' = 0 ∧ i = p then S 0 p ++ S k i else S k' i) = S k' i := by
      intro k'; rw [if_neg]; rintro ⟨_, e⟩; exact hip e
    obtain ⟨m2, L2, e2, lay2, fit2, ex2⟩ := ih (fun k' h => hks k' (by simp [h])) lay1 fit1 ex1 (by
      simp only [hSi, and_self, if_true, List.length_append]
      omega)
    simp only [hSi, and_self, if_true] at lay2 fit2 ex2
    have eS : (fun l j => if l = 0 ∧ j = p then S 0 p ++ S k i ++ (ks.flatMap fun k' => S k' i)
        else if l = 0 ∧ j = p then S 0 p ++ S k i else S l j)
        = fun l j => if l = 0 ∧ j = p then S 0 p ++ ((k :: ks).flatMap fun k' => S k' i)
          else S l j := by
      funext l j
      by_cases h : l = 0 ∧ j = p
      · simp [h, List.flatMap_cons]
      · simp [h]
    rw [eS] at lay2 fit2 ex2
    refine ⟨m2, L2, ?_, lay2, fit2, ex2⟩
    simp only [List.foldlM_cons, e1]
    exact e2

/-- Contents of the ranges when `t` records are done. -/
def Plan.seg (P : Plan) (t k i : Nat) : List Pt :=
  if k = 0 then P.own 0 i ++ (if P.sh i then P.accs t i else []) else P.own k i

def Plan.rel (P : Plan) (t i : Nat) : Int := if i < t then P.off i else 0

/-- The state of the array when `t` records are done. -/
def Done (P : Plan) (t : Nat) (m : Mem) : Prop :=
  Lay P m (fun k i => (P.seg t k i).length) (P.seg t) (P.rel t) (P.kids t)

theorem seg_fits (ok : P.Ok) {t : Nat} (ht : t ≤ P.N) : Fits P (P.seg t) (P.kids t) := by
  have ha : ∀ i, i < P.N → (P.accs t i).length ≤ (P.accs i i).length := by
    intro i hi
    rcases Nat.le_total t i with h | h
    · exact Plan.accs_mono h i
    · rw [Plan.accs_up ok h ht]
  refine ⟨?_, ?_⟩
  · intro i hi k hk
    simp only [Plan.seg, Plan.cap, Plan.ch]
    have := ha i hi
    split
    · rename_i h; subst h
      split <;> simp [*]
    · simp
  · intro i hi _
    rcases Nat.le_total t i with h | h
    · exact Plan.kids_mono h i
    · rw [Plan.kids_up ok h ht]

/-- What the records say. -/
structure MsOk (P : Plan) (ms : Nat → Mser) : Prop where
  points : ∀ i, i < P.N → (ms i).points = P.off i
  mtype : ∀ i, i < P.N → (ms i).mtype = if P.sh i then .share4 else .recursive4

/-- The rectangle of the own pixels of record `i`. -/
def ownBox (box : Nat → Nat → Int × Int × Int × Int) (i : Nat) : Int × Int × Int × Int :=
  [0, 1, 2, 3].foldl (fun a k => joinBox a (box k i)) (-1, 0, 0, 0)

def ownRect (box : Nat → Nat → Int × Int × Int × Int) (i : Nat) : Rect :=
  ⟨(ownBox box i).1, (ownBox box i).2.1, (ownBox box i).2.2.1 - (ownBox box i).1 + 1,
    (ownBox box i).2.2.2 - (ownBox box i).2.1 + 1⟩

/-- The rectangles of the records when `t` records are done. -/
def Plan.rects (P : Plan) (own : Nat → Rect) : Nat → Nat → Rect
  | 0 => fun _ => Rect.zero
  | t + 1 => fun j =>
    let r := (P.rects own t t).append (own t)
    if j = t then r
    else if P.up t = some j then (P.rects own t j).append r
    else P.rects own t j

theorem join_step (ok : P.Ok) {t : Nat} (ht : t < P.N) {s : JoinSt} {X : XForest} {r : Reg}
    {box : Nat → Nat → Int × Int × Int × Int} (hup : parentRecord X r = P.up t)
    (hbox : (ownBox box t).1 ≠ -1) (done : Done P t s.mem) (mo : MsOk P s.ms)
    (hrect : ∀ j, j < P.N → (s.ms j).rect = P.rects (ownRect box) t j) :
    ∃ s', joinOne P.size P.N X box s (r, t) = some s' ∧ Done P (t + 1) s'.mem ∧ MsOk P s'.ms ∧
      (∀ j, j < P.N → (s'.ms j).rect = P.rects (ownRect box) (t + 1) j) ∧
      (∀ j, (s'.ms j).size = (s.ms j).size ∧ (s'.ms j).gray = (s.ms j).gray) := by
  have hpt := mo.points t ht
  have htt := mo.mtype t ht
  have dt : P.rel t t = 0 := by simp [Plan.rel]
  have hrel : (fun j => if j = t then (P.off t : Int) else P.rel t j) = P.rel (t + 1) := by
    funext j
    simp only [Plan.rel]
    by_cases h : j = t
    · subst h; simp
    · by_cases h' : j < t
      · rw [if_neg h, if_pos h', if_pos (by omega)]
      · rw [if_neg h, if_neg h', if_neg (by omega)]
  have fit := seg_fits ok (Nat.le_of_lt ht)
  have hb : ([0, 1, 2, 3].foldl (fun a k => joinBox a (box k t)) (-1, 0, 0, 0)).1 ≠ -1 := hbox
  have hms1 : ∀ (f : Rect), MsOk P (Function.update s.ms t { s.ms t with rect := f }) := by
    intro f
    refine ⟨?_, ?_⟩ <;> intro j hj <;> by_cases h : j = t
    · subst h; simp [hpt]
    · rw [Function.update_of_ne h]; exact mo.points j hj
    · subst h; rw [Function.update_self]; exact htt
    · rw [Function.update_of_ne h]; exact mo.mtype j hj
  have hms2 : ∀ (ms : Nat → Mser) (p : Nat) (f : Rect), MsOk P ms →
      MsOk P (Function.update ms p { ms p with rect := f }) := by
    intro ms p f mo'
    refine ⟨?_, ?_⟩ <;> intro j hj <;> by_cases h : j = p
    · subst h; rw [Function.update_self]; exact mo'.points j hj
    · rw [Function.update_of_ne h]; exact mo'.points j hj
    · subst h; rw [Function.update_self]; exact mo'.mtype j hj
    · rw [Function.update_of_ne h]; exact mo'.mtype j hj
  rcases hu : P.up t with _ | p
  · -- no parent
    obtain ⟨m', e', lay'⟩ := lay_relative done fit ht dt
    have hk : P.kids (t + 1) = P.kids t := by
      funext j; exact Plan.kids_succ_ne (by rw [hu]; simp)
    have hs : P.seg (t + 1) = P.seg t := by
      funext k j; simp only [Plan.seg]
      rw [Plan.accs_succ_ne (by rw [hu]; simp)]
    refine ⟨⟨Function.update s.ms t { s.ms t with rect := (s.ms t).rect.append (ownRect box t) },
      m'⟩, ?_, ?_, hms1 _, ?_, ?_⟩
    · simp only [joinOne, hup, hu]
      rw [if_neg hb, hpt, e']
      rfl
    · simp only [Done, hk, hs]
      rw [hrel] at lay'
      exact lay'
    · intro j hj
      simp only [Plan.rects]
      by_cases h : j = t
      · subst h; simp [hrect j hj]
      · rw [Function.update_of_ne h, if_neg h, if_neg (by rw [hu]; simp)]; exact hrect j hj
    · intro j
      by_cases h : j = t
      · subst h; simp
      · dsimp only; rw [Function.update_of_ne h]; exact ⟨rfl, rfl⟩
  · obtain ⟨htp, hp⟩ := ok.up_lt t p ht hu
    have hpp := mo.points p hp
    have hpt' := mo.mtype p hp
    have dp : P.rel t p = 0 := by simp only [Plan.rel]; rw [if_neg (by omega)]
    have key : ∃ m1, (if (s.ms t).mtype = .share4 then
            if (s.ms p).mtype = .share4 then
              [0, 1, 2, 3].foldlM (copySeg P.size (s.ms t).points (s.ms p).points) s.mem
            else addChild P.size (s.ms p).points ((t : Int) - p) s.mem
          else addChild P.size (s.ms p).points ((t : Int) - p) s.mem) = some m1 ∧
        Lay P m1 (fun k i => (P.seg (t + 1) k i).length) (P.seg (t + 1)) (P.rel t)
          (P.kids (t + 1)) := by
      rw [hpt, hpp]
      by_cases hsp : P.sh p = true
      · have hst := ok.sh_up t p ht hu hsp
        rw [if_pos (by rw [htt, hst]; rfl), if_pos (by rw [hpt', hsp]; rfl)]
        have hfm : ([0, 1, 2, 3].flatMap fun k => P.seg t k t) = P.full t := by
          simp [Plan.seg, Plan.full, hst]
        have hlen : (P.accs t p).length + (P.full t).length ≤ (P.accs p p).length := by
          have h1 := Plan.accs_mono (P := P) (Nat.succ_le_of_lt htp) p
          rw [Plan.accs_succ hu, List.length_append] at h1
          exact h1
        obtain ⟨m1, L1, e1, lay1, fit1, ex1⟩ := lay_copies (P := P) ht hp (by omega) dt dp
          [0, 1, 2, 3] (by simp) done fit (fun _ _ _ _ => rfl) (by
            rw [hfm]
            simp only [Plan.seg, Plan.cap, Plan.ch, if_true, hsp, List.length_append]
            omega)
        have hS : (fun l j => if l = 0 ∧ j = p then P.seg t 0 p ++ ([0, 1, 2, 3].flatMap fun k =>
            P.seg t k t) else P.seg t l j) = P.seg (t + 1) := by
          rw [hfm]
          funext l j
          by_cases h : l = 0 ∧ j = p
          · obtain ⟨rfl, rfl⟩ := h
            simp only [and_self, if_true, Plan.seg, hsp, Plan.accs_succ hu, List.append_assoc]
          · rw [if_neg h]
            simp only [Plan.seg]
            by_cases hl : l = 0
            · subst hl
              have hj : j ≠ p := fun e => h ⟨rfl, e⟩
              rw [Plan.accs_succ_ne (j := j) (by rw [hu]; simp; omega)]
            · simp [hl]
        rw [hS] at lay1 ex1
        have hkids : ∀ j, j < P.N → P.sh j = false → P.kids (t + 1) j = P.kids t j := by
          intro j _ hj
          apply Plan.kids_succ_ne
          rw [hu]; simp
          rintro rfl; rw [hsp] at hj; cases hj
        refine ⟨m1, e1, ?_, lay1.pts, ?_⟩
        · intro j hj k hk
          have := lay1.head j hj k hk
          dsimp only at this
          rw [ex1 j hj k hk] at this
          exact this
        · intro j hj hs
          rw [hkids j hj hs]
          exact lay1.table j hj hs
      · have hsp' : P.sh p = false := by simpa using hsp
        have hif : (if (s.ms t).mtype = MemType.share4 then
            if (s.ms p).mtype = .share4 then
              [0, 1, 2, 3].foldlM (copySeg P.size (P.off t) (P.off p)) s.mem
            else addChild P.size (P.off p) ((t : Int) - p) s.mem
          else addChild P.size (P.off p) ((t : Int) - p) s.mem)
            = addChild P.size (P.off p) ((t : Int) - p) s.mem := by
          have hne : (s.ms p).mtype ≠ .share4 := by rw [hpt', hsp']; simp
          rw [if_neg hne]; split <;> rfl
        rw [hif]
        have hlen : (P.kids t p).length + 1 ≤ (P.kids p p).length := by
          have h1 := Plan.kids_mono (P := P) (Nat.succ_le_of_lt htp) p
          rw [Plan.kids_succ hu, List.length_append] at h1
          exact h1
        obtain ⟨m1, e1, lay1⟩ := lay_child (i := t) done fit hp hsp' hlen
        have hS : ∀ k j, P.seg (t + 1) k j = P.seg t k j := by
          intro k j
          simp only [Plan.seg]
          by_cases hj : j = p
          · subst hj; simp [hsp']
          · rw [Plan.accs_succ_ne (j := j) (by rw [hu]; simp; omega)]
        have hS' : P.seg (t + 1) = P.seg t := by funext k j; exact hS k j
        have hK : (fun j => if j = p then P.kids t p ++ [t] else P.kids t j) = P.kids (t + 1) := by
          funext j
          by_cases hj : j = p
          · subst hj; rw [if_pos rfl, Plan.kids_succ hu]
          · rw [if_neg hj, Plan.kids_succ_ne (by rw [hu]; simp; omega)]
        rw [hK] at lay1
        refine ⟨m1, e1, ?_⟩
        rw [hS']
        exact lay1
    obtain ⟨m1, e1, lay1⟩ := key
    obtain ⟨m', e', lay'⟩ := lay_relative lay1 (seg_fits ok (Nat.succ_le_of_lt ht)) ht dt
    rw [hrel] at lay'
    have hpn : p ≠ t := by omega
    refine ⟨⟨Function.update (Function.update s.ms t
        { s.ms t with rect := (s.ms t).rect.append (ownRect box t) }) p
        { (Function.update s.ms t
          { s.ms t with rect := (s.ms t).rect.append (ownRect box t) }) p with
          rect := ((Function.update s.ms t
          { s.ms t with rect := (s.ms t).rect.append (ownRect box t) }) p).rect.append
            ((s.ms t).rect.append (ownRect box t)) },
      m'⟩, ?_, lay', hms2 _ _ _ (hms1 _), ?_, ?_⟩
    · simp only [joinOne, hup, hu]
      rw [if_neg hb, if_pos hp, e1, Option.bind_some, hpt, e']
      rfl
    · intro j hj
      simp only [Plan.rects]
      by_cases h : j = t
      · subst h
        rw [Function.update_of_ne (Ne.symm hpn), Function.update_self, if_pos rfl, hrect j hj]
      · by_cases h2 : j = p
        · subst h2
          rw [Function.update_self, if_neg h, if_pos hu, Function.update_of_ne h, hrect j hj,
            hrect t ht]
        · rw [Function.update_of_ne h2, Function.update_of_ne h, if_neg h,
            if_neg (by rw [hu]; simp; omega)]
          exact hrect j hj
    · intro j
      dsimp only
      by_cases h2 : j = p
      · subst h2
        rw [Function.update_self, Function.update_of_ne hpn]
        exact ⟨rfl, rfl⟩
      · rw [Function.update_of_ne h2]
        by_cases h : j = t
        · subst h; rw [Function.update_self]; exact ⟨rfl, rfl⟩
        · rw [Function.update_of_ne h]; exact ⟨rfl, rfl⟩

/-- The whole collecting loop. -/
theorem join_loop (ok : P.Ok) {X : XForest} {arr : List Reg} (hN : arr.length = P.N)
    {box : Nat → Nat → Int × Int × Int × Int}
    (hup : ∀ t (h : t < arr.length), parentRecord X arr[t] = P.up t)
    (hbox : ∀ t, t < P.N → (ownBox box t).1 ≠ -1) {s : JoinSt} (done : Done P 0 s.mem)
    (mo : MsOk P s.ms) (hrect : ∀ j, j < P.N → (s.ms j).rect = Rect.zero) :
    ∃ s', arr.zipIdx.foldlM (joinOne P.size P.N X box) s = some s' ∧ Done P P.N s'.mem ∧
      MsOk P s'.ms ∧ (∀ j, j < P.N → (s'.ms j).rect = P.rects (ownRect box) P.N j) ∧
      (∀ j, (s'.ms j).size = (s.ms j).size ∧ (s'.ms j).gray = (s.ms j).gray) := by
  have gen : ∀ (l : List Reg) (t : Nat) (s : JoinSt), t + l.length = P.N →
      (∀ j (h : j < l.length), parentRecord X l[j] = P.up (t + j)) → Done P t s.mem →
      MsOk P s.ms → (∀ j, j < P.N → (s.ms j).rect = P.rects (ownRect box) t j) →
      ∃ s', (l.zipIdx t).foldlM (joinOne P.size P.N X box) s = some s' ∧ Done P P.N s'.mem ∧
        MsOk P s'.ms ∧ (∀ j, j < P.N → (s'.ms j).rect = P.rects (ownRect box) P.N j) ∧
        (∀ j, (s'.ms j).size = (s.ms j).size ∧ (s'.ms j).gray = (s.ms j).gray) := by
    intro l
    induction l with
    | nil =>
      intro t s h1 _ h2 h3 h4
      simp at h1; subst h1
      exact ⟨s, rfl, h2, h3, h4, fun _ => ⟨rfl, rfl⟩⟩
    | cons r l ih =>
      intro t s h1 hu h2 h3 h4
      rw [List.length_cons] at h1
      have ht : t < P.N := by omega
      obtain ⟨s1, e1, d1, m1, r1, k1⟩ := join_step ok ht (r := r) (by
        have := hu 0 (by simp); simpa using this) (hbox t ht) h2 h3 h4
      obtain ⟨s2, e2, d2, m2, r2, k2⟩ := ih (t + 1) s1 (by omega) (by
        intro j hj
        have := hu (j + 1) (by simp; omega)
        simp only [List.getElem_cons_succ] at this
        rw [this]; congr 1; omega) d1 m1 r1
      refine ⟨s2, ?_, d2, m2, r2, ?_⟩
      · rw [List.zipIdx_cons, List.foldlM_cons, e1]
        exact e2
      · intro j
        exact ⟨(k2 j).1.trans (k1 j).1, (k2 j).2.trans (k1 j).2⟩
  exact gen arr 0 s (by omega) (by intro j h; rw [Nat.zero_add]; exact hup j h) done mo
    (by intro j hj; rw [hrect j hj]; rfl)

end

end Verif.Extract
