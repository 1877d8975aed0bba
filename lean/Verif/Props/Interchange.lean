import Verif.Proof.Interchange
import Verif.Props.Parts
/-
Property C79: types that differ only in how they are written (boxes, structs instead of tuples, names, copies) are
interchangeable.
-/
namespace Teleparse
variable {m m' n : Nat}

/-! ## C79: interchangeable types -/

/-- If one of two interchangeable roots is accepted, so is the other. -/
theorem C79_accepted (S : Schema m n) (S' : Schema m' n) (R : Ty m n → Ty m' n → Prop) (hI : Interchange S S' R)
    (root : Ty m n) (root' : Ty m' n) (hR : R root root') (fuel : Nat) (md : Metadata (PId m n) n)
    (h : S.metadata fuel root = some (.ok md)) : ∃ md' fuel', ∀ f ≥ fuel', S'.metadata f root' = some (.ok md') := by
  obtain ⟨r, f, hr⟩ := C33_schema_total S' root'
  obtain ⟨md', rfl⟩ := metadata_alike hI hR h (hr f (Nat.le_refl _))
  exact ⟨md', f, hr⟩

/-- Interchangeable types inside of interchangeable roots have the same FIRST sets and both or neither can be empty. -/
theorem C79_first (S : Schema m n) (S' : Schema m' n) (R : Ty m n → Ty m' n → Prop) (hI : Interchange S S' R)
    (root : Ty m n) (root' : Ty m' n) (hR : R root root') (fuel fuel' : Nat) (md : Metadata (PId m n) n)
    (md' : Metadata (PId m' n) n) (h : S.metadata fuel root = some (.ok md))
    (h' : S'.metadata fuel' root' = some (.ok md')) (a : Ty m n) (b : Ty m' n) (hab : R a b)
    (ha : Reach S.tyParts root a) (hb : Reach S'.tyParts root' b) (x : Option (TokenSrc n)) :
    (md.first.get a.pid).contains x = (md'.first.get b.pid).contains x :=
  metadata_alike_first hI hR h h' (PAlike.ty hab).i (reach_pid ha) (reach_pid hb) x

/-- Interchangeable roots have the same sentences. -/
theorem C79_language (S : Schema m n) (S' : Schema m' n) (R : Ty m n → Ty m' n → Prop) (hI : Interchange S S' R)
    (root : Ty m n) (root' : Ty m' n) (hR : R root root') (G : Grammar (PId m n) n) (G' : Grammar (PId m' n) n)
    (hG : S.IsGrammar root G) (hG' : S'.IsGrammar root' G') (w : List (TokenSrc n)) :
    Derives G [.nt root.pid] (w.map .tok) ↔ Derives G' [.nt root'.pid] (w.map .tok) :=
  (bisim_of_interchange hI hR hG hG').sentence ⟨(PAlike.ty hR).i, .refl, .refl⟩ w

/-- Where `Parser::parse` reports no syntax error for one of two interchangeable roots, it does the same for the other:
same result, same tokens, same semantic types, same place, if related `Punct` lists have no fewer tokens in their FOLLOW
sets. Missing for the full statement: `Punct` lists that are one production before and several after (false, see
`C79_false_punct`). -/
theorem C79_parse_partial (ext : Fin n → Bool) (S : Schema m n) (S' : Schema m' n) (R : Ty m n → Ty m' n → Prop)
    (hI : Interchange S S' R) (root : Ty m n) (root' : Ty m' n) (hR : R root root') (fuel fuel' : Nat)
    (md : Metadata (PId m n) n) (md' : Metadata (PId m' n) n) (h : S.metadata fuel root = some (.ok md))
    (h' : S'.metadata fuel' root' = some (.ok md'))
    (hpunct : ∀ a b a' b', R a a' → R b b' → Reach S.tyParts root (.punct a b) →
      Reach S'.tyParts root' (.punct a' b') → ∀ tok, (md.follow.get (Ty.punct a b).pid).contains (some tok) = true →
        (md'.follow.get (Ty.punct a' b').pid).contains (some tok) = true)
    (f1 : Nat) (p p1 : Parser n) (x : Option (Tree n)) (hp : p.parse ext S f1 root = .ok (.ok x) p1)
    (he : syntaxErrors p1.info.errors = syntaxErrors p.info.errors) :
    ∃ N, ∀ f ≥ N, p.parse ext S' f root' = .ok (.ok x) p1 := by
  obtain ⟨e, s1, md1, r, q, m1, y1, rfl, k1, g1⟩ := parse_clean hp
  have hc : r.errs = [] := by
    have := congrArg List.length he
    rw [s1, List.length_append] at this
    exact List.length_eq_zero_iff.1 (by omega)
  cases k1 hc
  cases (metadata_more h (Nat.le_max_left fuel f1)).symm.trans (metadata_more m1 (Nat.le_max_right fuel f1))
  obtain ⟨F, hF⟩ := (agreeX hI hR h h' hpunct).yields hI hR .refl .refl hc (ext := ext) ⟨f1, y1⟩
  refine ⟨max fuel' F, fun f hf => ?_⟩
  unfold Parser.parse Parser.parseWithMeta
  rw [metadata_more h' (show fuel' ≤ f by omega)]
  simp only [produce_more hF (show F ≤ f by omega)]
  cases r with
  | success t => rw [(g1 t).2 ⟨_, .success _⟩]
  | recovered t e =>
    have : e = [] := hc
    subst this
    rw [(g1 t).2 ⟨_, .recovered ..⟩]
    simp
  | panic e =>
    have : e = [] := hc
    subst this
    cases x with
    | some t => obtain ⟨_, hg⟩ := (g1 t).1 rfl; cases hg
    | none => simp

/-- Without `Punct` there is no exception. -/
theorem C79_parse (ext : Fin n → Bool) (S : Schema m n) (S' : Schema m' n) (R : Ty m n → Ty m' n → Prop)
    (hI : Interchange S S' R) (root : Ty m n) (root' : Ty m' n) (hR : R root root')
    (hno : ∀ a b, ¬ Reach S.tyParts root (.punct a b)) (f1 : Nat) (p p1 : Parser n) (x : Option (Tree n))
    (hp : p.parse ext S f1 root = .ok (.ok x) p1) (he : syntaxErrors p1.info.errors = syntaxErrors p.info.errors) :
    ∃ N, ∀ f ≥ N, p.parse ext S' f root' = .ok (.ok x) p1 := by
  obtain ⟨_, _, md, _, _, h, _⟩ := parse_clean hp
  obtain ⟨md', f', h'⟩ := C79_accepted S S' R hI root root' hR f1 md h
  exact C79_parse_partial ext S S' R hI root root' hR f1 f' md md' h (h' f' (Nat.le_refl _))
    (fun a b _ _ _ _ hr => absurd hr (hno a b)) f1 p p1 x hp he

/-! ### Boxes -/

theorem unbox_interchange (S : Schema m n) : Interchange S S.unbox (fun a b => b = a.unbox) := by
  rintro a _ rfl
  induction a with
  | term k t => exact .term ..
  | user k =>
    have key : ∀ l : List (Field m n),
        Pointwise (FieldAlike fun (a b : Ty m n) => b = a.unbox) l (l.map fun f => (f.1.unbox, f.2)) := by
      intro l
      induction l with
      | nil => exact .nil
      | cons f l ih => exact .cons ⟨rfl, rfl⟩ ih
    cases hS : S k with
    | struct f fs =>
      exact .fields (l := f :: fs) (by simp [Schema.fields?, hS]) (by simp [Schema.fields?, Schema.unbox, hS, Ty.unbox])
        (key (f :: fs))
    | enum v vs =>
      exact .variants hS (by simp only [Schema.unbox, hS]) (key (v :: vs))
  | box t ih => exact .boxL ih
  | option t _ => exact .option rfl
  | exist t _ => exact .exist rfl
  | quote t _ => exact .quote rfl
  | parse t _ => exact .parse rfl
  | plus t _ => exact .plus rfl
  | star t _ => exact .star rfl
  | loop t _ => exact .loop rfl
  | split t p _ _ => exact .split rfl rfl
  | punct t p _ _ => exact .punct rfl rfl
  | recover t p _ _ => exact .recover rfl rfl
  | tup2 a b => exact .fields rfl rfl (.cons ⟨rfl, rfl⟩ (.cons ⟨rfl, rfl⟩ .nil))
  | tup3 a b c => exact .fields rfl rfl (.cons ⟨rfl, rfl⟩ (.cons ⟨rfl, rfl⟩ (.cons ⟨rfl, rfl⟩ .nil)))
  | tup4 a b c d =>
    exact .fields rfl rfl (.cons ⟨rfl, rfl⟩ (.cons ⟨rfl, rfl⟩ (.cons ⟨rfl, rfl⟩ (.cons ⟨rfl, rfl⟩ .nil))))
  | tup5 a b c d e =>
    exact .fields rfl rfl
      (.cons ⟨rfl, rfl⟩ (.cons ⟨rfl, rfl⟩ (.cons ⟨rfl, rfl⟩ (.cons ⟨rfl, rfl⟩ (.cons ⟨rfl, rfl⟩ .nil)))))

/-- A production without boxes. -/
def PId.strip : PId m n → PId m n
  | .box p => p.strip
  | .term k t => .term k t
  | .eps => .eps
  | .user k => .user k
  | .opt p => .opt p.strip
  | .plus p => .plus p.strip
  | .punct t p => .punct t.strip p.strip
  | .tup2 a b => .tup2 a.strip b.strip
  | .tup3 a b c => .tup3 a.strip b.strip c.strip
  | .tup4 a b c d => .tup4 a.strip b.strip c.strip d.strip
  | .tup5 a b c d e => .tup5 a.strip b.strip c.strip d.strip e.strip

theorem strip_id : ∀ p : PId m n, p.strip.id = p.id.strip
  | .box p => strip_id p
  | .term _ _ | .eps | .user _ | .opt _ | .plus _ | .punct _ _ | .tup2 _ _ | .tup3 _ _ _ | .tup4 _ _ _ _
  | .tup5 _ _ _ _ _ => rfl

theorem unbox_prod (t : Ty m n) : t.unbox.prod = t.prod.strip := by
  induction t <;> simp_all [Ty.unbox, Ty.prod, PId.strip]

theorem unbox_alike {p q : PId m n} (h : PAlike (fun (a b : Ty m n) => b = a.unbox) p q) : q = p.strip := by
  induction h with
  | ty h => subst h; exact unbox_prod _
  | eps => rfl
  | opt _ ih => simp [PId.strip, ih]
  | plus _ ih => simp [PId.strip, ih]
  | tup2 _ _ ih ih' => simp [PId.strip, ih, ih']
  | punct _ _ ih ih' => simp [PId.strip, ih, ih']

/-- Removing all boxes changes nothing where no syntax error is reported. -/
theorem C79_unbox (ext : Fin n → Bool) (S : Schema m n) (root : Ty m n) (f1 : Nat) (p p1 : Parser n)
    (x : Option (Tree n)) (hp : p.parse ext S f1 root = .ok (.ok x) p1)
    (he : syntaxErrors p1.info.errors = syntaxErrors p.info.errors) :
    ∃ N, ∀ f ≥ N, p.parse ext S.unbox f root.unbox = .ok (.ok x) p1 := by
  obtain ⟨_, _, md, _, _, h, _⟩ := parse_clean hp
  obtain ⟨md', f', h'⟩ := C79_accepted S S.unbox _ (unbox_interchange S) root root.unbox rfl f1 md h
  have h' := h' f' (Nat.le_refl _)
  refine C79_parse_partial ext S S.unbox _ (unbox_interchange S) root root.unbox rfl f1 f' md md' h h' ?_ f1 p p1 x hp he
  rintro a b _ _ rfl rfl - - tok ht
  obtain ⟨i', ⟨p, q, h1, h2, rfl⟩, -, h4⟩ := metadata_alike_follow (unbox_interchange S) rfl h h' ht
  rw [unbox_alike h1, strip_id, ← h2] at h4
  have : (Ty.punct a b).pid.strip = (Ty.punct a.unbox b.unbox).pid := by
    simp [Ty.pid, Ty.prod, PId.id, PId.strip, unbox_prod]
  rwa [this] at h4

/-! ### Examples -/

/-- `E = num | L`, `L = word E* "x"`, with two copies of `E`, a box, and another name for `num` in one of them. -/
def ixS : Schema 3 3 := fun k =>
  if k = 0 then .enum (.term 9 ⟨1, none⟩, none) [(.box (.user 1), none)]
  else if k = 1 then
    .struct (.term 0 ⟨0, none⟩, some (LSet.new.insert 2)) [(.star (.user 2), none), (.term 2 ⟨2, some [120]⟩, none)]
  else .enum (.term 1 ⟨1, none⟩, none) [(.user 1, none)]
def ixT : Ty 3 3 := .loop (.box (.user 0))
def ixPairs : List (Ty 2 3 × Ty 3 3) :=
  [(cxT, ixT), (.user 0, .box (.user 0)), (.user 0, .user 0), (.user 0, .user 2), (.user 1, .user 1), (.user 1, .box (.user 1)),
   (.term 1 ⟨1, none⟩, .term 9 ⟨1, none⟩), (.term 1 ⟨1, none⟩, .term 1 ⟨1, none⟩), (.term 0 ⟨0, none⟩, .term 0 ⟨0, none⟩),
   (.star (.user 0), .star (.user 2)), (.term 2 ⟨2, some [120]⟩, .term 2 ⟨2, some [120]⟩)]
abbrev ixR (a : Ty 2 3) (b : Ty 3 3) : Prop := (a, b) ∈ ixPairs

theorem ix_interchange : Interchange cxS ixS ixR := by
  have r : ∀ {a b}, (a, b) ∈ ixPairs → ixR a b := fun h => h
  have f1 : ∀ {a b s}, (a, b) ∈ ixPairs → FieldAlike ixR (a, s) (b, s) := fun h => ⟨h, rfl⟩
  have u1 : SameForm cxS ixS ixR (.user 1) (.user 1) :=
    .fields rfl rfl (.cons (f1 (by decide)) (.cons (f1 (by decide)) (.cons (f1 (by decide)) .nil)))
  have u0 : SameForm cxS ixS ixR (.user 0) (.user 0) :=
    .variants (by rfl) (by rfl) (.cons (f1 (by decide)) (.cons (f1 (by decide)) .nil))
  have u2 : SameForm cxS ixS ixR (.user 0) (.user 2) :=
    .variants (by rfl) (by rfl) (.cons (f1 (by decide)) (.cons (f1 (by decide)) .nil))
  intro a b h
  simp only [ixR, ixPairs, List.mem_cons, List.not_mem_nil, or_false, Prod.mk.injEq] at h
  rcases h with ⟨rfl, rfl⟩ | ⟨rfl, rfl⟩ | ⟨rfl, rfl⟩ | ⟨rfl, rfl⟩ | ⟨rfl, rfl⟩ | ⟨rfl, rfl⟩ | ⟨rfl, rfl⟩ | ⟨rfl, rfl⟩ |
    ⟨rfl, rfl⟩ | ⟨rfl, rfl⟩ | ⟨rfl, rfl⟩
  · exact .loop (r (by decide))
  · exact .boxR u0
  · exact u0
  · exact u2
  · exact u1
  · exact .boxR u1
  · exact .term ..
  · exact .term ..
  · exact .term ..
  · exact .star (r (by decide))
  · exact .term ..

def ixMd : Metadata (PId 3 3) 3 := okOf ⟨[], [], []⟩ (ixS.metadata 60 ixT)
theorem ixMd_ok : ixS.metadata 60 ixT = some (.ok ixMd) := rfl
def ixG : Grammar (PId 3 3) 3 := (registerFrom ixS.rule 60 ixT.pid).getD []
theorem ixG_ok : ixS.IsGrammar ixT ixG := .of_register (fuel := 60) rfl

theorem ix_part : Reach ixS.tyParts ixT (.user 2) := by
  have h1 : Reach ixS.tyParts ixT (.user 0) := .step (.step .refl (show .box (.user 0) ∈ _ by decide)) (by decide)
  have h2 : Reach ixS.tyParts ixT (.user 1) := .step (.step h1 (show .box (.user 1) ∈ _ by decide)) (by decide)
  exact .step (.step (.step h2 (show .star (.user 2) ∈ _ by decide)) (show .plus (.user 2) ∈ _ by decide)) (by decide)

example : ∃ md' fuel', ∀ f ≥ fuel', ixS.metadata f ixT = some (.ok md') :=
  C79_accepted cxS ixS ixR ix_interchange cxT ixT (by decide) 40 cxMd cxMd_ok
example (x : Option (TokenSrc 3)) : (cxMd.first.get (.user 0)).contains x = (ixMd.first.get (.user 2)).contains x :=
  C79_first cxS ixS ixR ix_interchange cxT ixT (by decide) 40 60 cxMd ixMd cxMd_ok ixMd_ok (.user 0) (.user 2) (by decide)
    (.step .refl (by decide))
    ix_part x
example (w : List (TokenSrc 3)) :
    Derives cxG [.nt cxT.pid] (w.map .tok) ↔ Derives ixG [.nt ixT.pid] (w.map .tok) :=
  C79_language cxS ixS ixR ix_interchange cxT ixT (by decide) cxG ixG cxG_ok ixG_ok w

/-- `a 1 2 x 3` -/
example : ∃ x p' N, ∀ f ≥ N, (Parser.new cxSource cxItems).parse noExt ixS f ixT = .ok (.ok (some x)) p' := by
  have h : ∃ x p', (Parser.new cxSource cxItems).parse noExt cxS 60 cxT = .ok (.ok (some x)) p' ∧
      syntaxErrors p'.info.errors = [] := ⟨_, _, by rfl, by rfl⟩
  obtain ⟨x, p', h1, h2⟩ := h
  obtain ⟨N, hN⟩ := C79_parse noExt cxS ixS ixR ix_interchange cxT ixT (by decide) (by
    intro a b hr
    have := reach_of_check (cxT :: cxU) (by decide) (by decide +kernel) hr
    simp [cxU, cxT] at this) 60 _ p' (some x) h1 h2
  exact ⟨x, p', N, hN⟩
/-- and without the box -/
example : ∃ x p' N, ∀ f ≥ N, (Parser.new cxSource cxItems).parse noExt ixS.unbox f ixT.unbox = .ok (.ok (some x)) p' := by
  have h : ∃ x p', (Parser.new cxSource cxItems).parse noExt ixS 60 ixT = .ok (.ok (some x)) p' ∧
      syntaxErrors p'.info.errors = [] := ⟨_, _, by rfl, by rfl⟩
  obtain ⟨x, p', h1, h2⟩ := h
  obtain ⟨N, hN⟩ := C79_unbox noExt ixS ixT 60 _ p' (some x) h1 h2
  exact ⟨x, p', N, hN⟩

/-- A struct with two fields and the tuple of their types, in a `Punct` list. -/
def iyS : Schema 1 3 := fun _ => .struct (.term 0 ⟨0, none⟩, none) [(.term 2 ⟨2, some [120]⟩, none)]
def iyT : Ty 1 3 := .punct (.user 0) (.term 1 ⟨1, none⟩)
def iyT' : Ty 0 3 := .punct (.tup2 exWord fxX) exNum
def iyPairs : List (Ty 1 3 × Ty 0 3) :=
  [(iyT, iyT'), (.user 0, .tup2 exWord fxX), (.term 0 ⟨0, none⟩, exWord), (.term 2 ⟨2, some [120]⟩, fxX),
   (.term 1 ⟨1, none⟩, exNum)]
abbrev iyR (a : Ty 1 3) (b : Ty 0 3) : Prop := (a, b) ∈ iyPairs
theorem iy_interchange : Interchange iyS exS iyR := by
  have r : ∀ {a b}, (a, b) ∈ iyPairs → iyR a b := fun h => h
  have f1 : ∀ {a b s}, (a, b) ∈ iyPairs → FieldAlike iyR (a, s) (b, s) := fun h => ⟨h, rfl⟩
  intro a b h
  simp only [iyR, iyPairs, List.mem_cons, List.not_mem_nil, or_false, Prod.mk.injEq] at h
  rcases h with ⟨rfl, rfl⟩ | ⟨rfl, rfl⟩ | ⟨rfl, rfl⟩ | ⟨rfl, rfl⟩ | ⟨rfl, rfl⟩
  · exact .punct (r (by decide)) (r (by decide))
  · exact .fields rfl rfl (.cons (f1 (by decide)) (.cons (f1 (by decide)) .nil))
  · exact .term ..
  · exact .term ..
  · exact .term ..
def iyMd : Metadata (PId 1 3) 3 := okOf ⟨[], [], []⟩ (iyS.metadata 30 iyT)
def iyMd' : Metadata (PId 0 3) 3 := okOf ⟨[], [], []⟩ (exS.metadata 30 iyT')
/-- `a x 1` -/
example : ∃ x p' N, ∀ f ≥ N, (Parser.new [97, 32, 120, 32, 49]
    [.token ⟨⟨0, 1⟩, 0⟩, .token ⟨⟨2, 3⟩, 2⟩, .token ⟨⟨4, 5⟩, 1⟩]).parse noExt exS f iyT' = .ok (.ok (some x)) p' := by
  have h : ∃ x p', (Parser.new [97, 32, 120, 32, 49]
      [.token ⟨⟨0, 1⟩, 0⟩, .token ⟨⟨2, 3⟩, 2⟩, .token ⟨⟨4, 5⟩, 1⟩]).parse noExt iyS 60 iyT = .ok (.ok (some x)) p' ∧
      syntaxErrors p'.info.errors = [] := ⟨_, _, by rfl, by rfl⟩
  obtain ⟨x, p', h1, h2⟩ := h
  obtain ⟨N, hN⟩ := C79_parse_partial noExt iyS exS iyR iy_interchange iyT iyT' (by decide) 30 30 iyMd iyMd' rfl rfl (by
    intro a b a' b' _ _ hr hr' tok
    have h1 := reach_of_check [iyT, .user 0, .term 0 ⟨0, none⟩, .term 2 ⟨2, some [120]⟩, .term 1 ⟨1, none⟩] (by decide)
      (by decide +kernel) hr
    simp only [iyT, List.mem_cons, List.not_mem_nil, or_false, Ty.punct.injEq, reduceCtorEq] at h1
    obtain ⟨rfl, rfl⟩ := h1
    have h2 := reach_of_check [iyT', .tup2 exWord fxX, exWord, fxX, exNum] (by decide) (by decide +kernel) hr'
    simp only [iyT', exWord, fxX, exNum, List.mem_cons, List.not_mem_nil, or_false, Ty.punct.injEq, reduceCtorEq] at h2
    obtain ⟨rfl, rfl⟩ := h2
    have : iyMd.follow.get iyT.pid = iyMd'.follow.get iyT'.pid := by rfl
    show (iyMd.follow.get iyT.pid).contains _ = true → (iyMd'.follow.get iyT'.pid).contains _ = true
    rw [this]
    exact id) 60 _ p' (some x) h1 h2
  exact ⟨x, p', N, hN⟩

/-- `Punct<word, num> "x" Punct<word, num>` on `a 1 x b 1 x`: both lists are one production, so the second takes the
`x` after the trailing separator for what follows it. With a box inside of the second list it is a production of its own
and reports an error. -/
def ipT : Ty 0 3 := .tup3 xpT fxX xpT
def ipT' : Ty 0 3 := .tup3 xpT fxX (.punct (.box exWord) exNum)
def ipP : Parser 3 := Parser.new [97, 32, 49, 32, 120, 32, 98, 32, 49, 32, 120]
  [.token ⟨⟨0, 1⟩, 0⟩, .token ⟨⟨2, 3⟩, 1⟩, .token ⟨⟨4, 5⟩, 2⟩, .token ⟨⟨6, 7⟩, 0⟩, .token ⟨⟨8, 9⟩, 1⟩, .token ⟨⟨10, 11⟩, 2⟩]
def ipPairs : List (Ty 0 3 × Ty 0 3) :=
  [(ipT, ipT'), (xpT, xpT), (xpT, .punct (.box exWord) exNum), (exWord, exWord), (exWord, .box exWord), (exNum, exNum),
   (fxX, fxX)]
abbrev ipR (a b : Ty 0 3) : Prop := (a, b) ∈ ipPairs

theorem C79_false_punct : Interchange exS exS ipR ∧ ipR ipT ipT' ∧ ipT'.unbox = ipT ∧
    (∃ x p', ipP.parse noExt exS 60 ipT = .ok (.ok (some x)) p' ∧ syntaxErrors p'.info.errors = []) ∧
    ∀ f x p', ipP.parse noExt exS f ipT' = .ok (.ok x) p' → syntaxErrors p'.info.errors ≠ [] := by
  refine ⟨?_, by decide, by decide, ⟨_, _, by rfl, by rfl⟩, ?_⟩
  · have r : ∀ {a b}, (a, b) ∈ ipPairs → ipR a b := fun h => h
    have f1 : ∀ {a b}, (a, b) ∈ ipPairs → FieldAlike ipR (a, none) (b, none) := fun h => ⟨h, rfl⟩
    intro a b h
    simp only [ipR, ipPairs, List.mem_cons, List.not_mem_nil, or_false, Prod.mk.injEq] at h
    rcases h with ⟨rfl, rfl⟩ | ⟨rfl, rfl⟩ | ⟨rfl, rfl⟩ | ⟨rfl, rfl⟩ | ⟨rfl, rfl⟩ | ⟨rfl, rfl⟩ | ⟨rfl, rfl⟩
    · exact .fields rfl rfl (.cons (f1 (by decide)) (.cons (f1 (by decide)) (.cons (f1 (by decide)) .nil)))
    · exact .punct (r (by decide)) (r (by decide))
    · exact .punct (r (by decide)) (r (by decide))
    · exact .term ..
    · exact .boxR (.term ..)
    · exact .term ..
    · exact .term ..
  · intro f x p' h he
    have h1 : ∃ y q, ipP.parse noExt exS 60 ipT' = .ok (.ok y) q ∧ syntaxErrors q.info.errors ≠ [] :=
      ⟨_, _, by rfl, by decide⟩
    obtain ⟨y, q, h1, h2⟩ := h1
    cases (rootParse_more h (Nat.le_max_left f 60)).symm.trans (rootParse_more h1 (Nat.le_max_right f 60))
    exact h2 he

end Teleparse
