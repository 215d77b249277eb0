import Verif.Syntax
/-
`/repo/src/utils/factorial.rs`.
-/
namespace Xprs

/-- The constant array `FACTORIALS` (`/repo/src/utils/factorial.rs:52-224`), each
literal `d.ddd_ddde k` written as the pair (digits without point, exponent), i.e.
`(M, E)` stands for the decimal literal `M · 10^E`.  Generated from the source text
by a script, all 171 entries in order. -/
def factorialLits : List (Nat × Int) := [
  (10, -1),
  (10, -1),
  (20, -1),
  (60, -1),
  (240, -1),
  (1200, -1),
  (7200, -1),
  (50400, -1),
  (403200, -1),
  (3628800, -1),
  (36288000, -1),
  (399168000, -1),
  (4790016000, -1),
  (62270208000, -1),
  (871782912000, -1),
  (13076743680000, -1),
  (209227898880000, -1),
  (3556874280960000, -1),
  (64023737057280000, -1),
  (121645100408832, 3),
  (243290200817664, 4),
  (5109094217170944, 4),
  (11240007277776077, 5),
  (2585201673888498, 7),
  (6204484017332394, 8),
  (15511210043330986, 9),
  (40329146112660565, 10),
  (10888869450418352, 12),
  (30488834461171384, 13),
  (8841761993739701, 15),
  (26525285981219103, 16),
  (8222838654177922, 18),
  (2631308369336935, 20),
  (8683317618811886, 21),
  (29523279903960412, 22),
  (10333147966386144, 24),
  (3719933267899012, 26),
  (13763753091226343, 27),
  (523022617466601, 30),
  (20397882081197442, 30),
  (8159152832478977, 32),
  (33452526613163803, 33),
  (14050061177528798, 35),
  (6041526306337383, 37),
  (26582715747884485, 38),
  (11962222086548019, 40),
  (55026221598120885, 41),
  (25862324151116818, 43),
  (12413915592536073, 45),
  (6082818640342675, 47),
  (30414093201713376, 48),
  (15511187532873822, 50),
  (8065817517094388, 52),
  (42748832840600255, 53),
  (2308436973392414, 56),
  (12696403353658276, 57),
  (7109985878048635, 59),
  (4052691950487722, 61),
  (2350561331282879, 63),
  (13868311854568986, 64),
  (8320987112741392, 66),
  (5075802138772248, 68),
  (3146997326038794, 70),
  (198260831540444, 73),
  (12688693218588417, 73),
  (8247650592082472, 75),
  (5443449390774431, 77),
  (3647111091818868, 79),
  (24800355424368305, 80),
  (1711224524281413, 83),
  (1197857166996989, 85),
  (8504785885678622, 86),
  (6123445837688608, 88),
  (44701154615126834, 89),
  (33078854415193856, 91),
  (2480914081139539, 94),
  (18854947016660498, 95),
  (14518309202828584, 97),
  (11324281178206295, 99),
  (8946182130782973, 101),
  (7156945704626378, 103),
  (5797126020747366, 105),
  (475364333701284, 108),
  (3945523969720657, 109),
  (3314240134565352, 111),
  (28171041143805494, 112),
  (24227095383672724, 114),
  (2107757298379527, 117),
  (18548264225739836, 118),
  (16507955160908452, 120),
  (14857159644817607, 122),
  (13520015276784023, 124),
  (124384140546413, 128),
  (11567725070816409, 128),
  (10873661566567424, 130),
  (10329978488239052, 132),
  (9916779348709491, 134),
  (9619275968248206, 136),
  (9426890448883242, 138),
  (933262154439441, 141),
  (933262154439441, 143),
  (9425947759838354, 144),
  (9614466715035121, 146),
  (9902900716486175, 148),
  (10299016745145622, 150),
  (10813967582402903, 152),
  (11462805637347078, 154),
  (12265202031961373, 156),
  (13246418194518284, 158),
  (14438595832024928, 160),
  (15882455415227421, 162),
  (17629525510902437, 164),
  (19745068572210728, 166),
  (22311927486598123, 168),
  (2543559733472186, 171),
  (2925093693493014, 173),
  (33931086844518965, 174),
  (3969937160808719, 177),
  (46845258497542883, 178),
  (5574585761207603, 181),
  (6689502913449124, 183),
  (809429852527344, 186),
  (9875044200833598, 187),
  (12146304367025325, 189),
  (15061417415111404, 191),
  (18826771768889254, 193),
  (2372173242880046, 196),
  (3012660018457658, 198),
  (38562048236258025, 199),
  (49745042224772855, 201),
  (6466855489220472, 204),
  (8471580690878817, 206),
  (1118248651196004, 209),
  (14872707060906852, 210),
  (1992942746161518, 213),
  (26904727073180495, 214),
  (3659042881952547, 217),
  (501288874827499, 220),
  (6917786472619486, 221),
  (9615723196941086, 223),
  (1346201247571752, 226),
  (189814375907617, 229),
  (26953641378881614, 229),
  (38543707171800706, 231),
  (5550293832739301, 234),
  (8047926057471987, 236),
  (117499720439091, 240),
  (17272458904546376, 240),
  (25563239178728637, 242),
  (3808922637630567, 245),
  (57133839564458505, 246),
  (8627209774233235, 249),
  (13113358856834518, 251),
  (2006343905095681, 254),
  (3089769613847349, 256),
  (4789142901463391, 258),
  (747106292628289, 261),
  (11729568794264138, 262),
  (18532718694937338, 264),
  (2946702272495037, 267),
  (4714723635992059, 269),
  (7590705053947215, 271),
  (12296942187394488, 273),
  (20044015765453015, 275),
  (32872185855342945, 277),
  (5423910666131586, 280),
  (9003691705778433, 282),
  (15036165148649983, 284),
  (2526075744973197, 287),
  (42690680090047027, 288),
  (7257415615307994, 291)]

/-- The values of the array: each literal denotes the nearest `f64`. -/
def factorialTable : List F64 := factorialLits.map fun l => F64.ofDecimal l.1 l.2

/-- `f64::to_int_unchecked::<usize>` (`factorial.rs:44`): undefined behaviour unless
the value, truncated towards zero, is finite and representable in `usize`
(here of 16 bits, the smallest there is: what is defined here is so on every target). -/
def toUsizeUnchecked : F64 → PM Nat
  | .nan => .error .ub
  | .inf _ => .error .ub
  | .fin s n _ =>
    let t := n / unit64
    if s && decide (t ≠ 0) then .error .ub
    else if 2 ^ 16 ≤ t then .error .ub
    else .ok t

/-- `factorial` (`/repo/src/utils/factorial.rs:21-48`). -/
def factorial (num : F64) : PM F64 :=
  if F64.blt num F64.f0 then .ok .nan
  else if F64.isInf num then .ok (.inf false)
  else if !(F64.beq (F64.fract num) F64.f0) then .ok .nan
  else if F64.blt (F64.ofNat 170) num then .ok (.inf false)
  else
    match toUsizeUnchecked num with
    | .error p => .error p
    | .ok index =>
      match factorialTable[index]? with
      | none => .error .index
      | some v => .ok v

end Xprs
