/- Tables of the UTF-8 code, transcribed from /repo/include/stc/priv/utf8_tab.c and utf8_prv.c. -/
namespace Verif.Utf8

/-- utf8_tab.c:2 `struct CaseMapping`. -/
structure CaseMapping where
  c1 : Nat
  c2 : Nat
  m2 : Nat
deriving DecidableEq, Repr

/-- utf8_tab.c:4-223 `casemappings` (218 entries). -/
def casemappings : List CaseMapping :=
  [⟨0x0041, 0x005A, 0x007A⟩, ⟨0x00B5, 0x00B5, 0x03BC⟩, ⟨0x00C0, 0x00D6, 0x00F6⟩, ⟨0x00D8, 0x00DE, 0x00FE⟩,
   ⟨0x0100, 0x012E, 0x012F⟩, ⟨0x0132, 0x0136, 0x0137⟩, ⟨0x0139, 0x0147, 0x0148⟩, ⟨0x014A, 0x0176, 0x0177⟩,
   ⟨0x0178, 0x0178, 0x00FF⟩, ⟨0x0179, 0x017D, 0x017E⟩, ⟨0x017F, 0x017F, 0x0073⟩, ⟨0x0181, 0x0181, 0x0253⟩,
   ⟨0x0182, 0x0184, 0x0185⟩, ⟨0x0186, 0x0186, 0x0254⟩, ⟨0x0187, 0x0187, 0x0188⟩, ⟨0x0189, 0x018A, 0x0257⟩,
   ⟨0x018B, 0x018B, 0x018C⟩, ⟨0x018E, 0x018E, 0x01DD⟩, ⟨0x018F, 0x018F, 0x0259⟩, ⟨0x0190, 0x0190, 0x025B⟩,
   ⟨0x0191, 0x0191, 0x0192⟩, ⟨0x0193, 0x0193, 0x0260⟩, ⟨0x0194, 0x0194, 0x0263⟩, ⟨0x0196, 0x0196, 0x0269⟩,
   ⟨0x0197, 0x0197, 0x0268⟩, ⟨0x0198, 0x0198, 0x0199⟩, ⟨0x019C, 0x019C, 0x026F⟩, ⟨0x019D, 0x019D, 0x0272⟩,
   ⟨0x019F, 0x019F, 0x0275⟩, ⟨0x01A0, 0x01A4, 0x01A5⟩, ⟨0x01A6, 0x01A6, 0x0280⟩, ⟨0x01A7, 0x01A7, 0x01A8⟩,
   ⟨0x01A9, 0x01A9, 0x0283⟩, ⟨0x01AC, 0x01AC, 0x01AD⟩, ⟨0x01AE, 0x01AE, 0x0288⟩, ⟨0x01AF, 0x01AF, 0x01B0⟩,
   ⟨0x01B1, 0x01B2, 0x028B⟩, ⟨0x01B3, 0x01B5, 0x01B6⟩, ⟨0x01B7, 0x01B7, 0x0292⟩, ⟨0x01B8, 0x01B8, 0x01B9⟩,
   ⟨0x01BC, 0x01BC, 0x01BD⟩, ⟨0x01C4, 0x01C4, 0x01C6⟩, ⟨0x01C5, 0x01C5, 0x01C6⟩, ⟨0x01C7, 0x01C7, 0x01C9⟩,
   ⟨0x01C8, 0x01C8, 0x01C9⟩, ⟨0x01CA, 0x01CA, 0x01CC⟩, ⟨0x01CB, 0x01DB, 0x01DC⟩, ⟨0x01DE, 0x01EE, 0x01EF⟩,
   ⟨0x01F1, 0x01F1, 0x01F3⟩, ⟨0x01F2, 0x01F4, 0x01F5⟩, ⟨0x01F6, 0x01F6, 0x0195⟩, ⟨0x01F7, 0x01F7, 0x01BF⟩,
   ⟨0x01F8, 0x021E, 0x021F⟩, ⟨0x0220, 0x0220, 0x019E⟩, ⟨0x0222, 0x0232, 0x0233⟩, ⟨0x023A, 0x023A, 0x2C65⟩,
   ⟨0x023B, 0x023B, 0x023C⟩, ⟨0x023D, 0x023D, 0x019A⟩, ⟨0x023E, 0x023E, 0x2C66⟩, ⟨0x0241, 0x0241, 0x0242⟩,
   ⟨0x0243, 0x0243, 0x0180⟩, ⟨0x0244, 0x0244, 0x0289⟩, ⟨0x0245, 0x0245, 0x028C⟩, ⟨0x0246, 0x024E, 0x024F⟩,
   ⟨0x0345, 0x0345, 0x03B9⟩, ⟨0x0370, 0x0372, 0x0373⟩, ⟨0x0376, 0x0376, 0x0377⟩, ⟨0x037F, 0x037F, 0x03F3⟩,
   ⟨0x0386, 0x0386, 0x03AC⟩, ⟨0x0388, 0x038A, 0x03AF⟩, ⟨0x038C, 0x038C, 0x03CC⟩, ⟨0x038E, 0x038F, 0x03CE⟩,
   ⟨0x0391, 0x03A1, 0x03C1⟩, ⟨0x03A3, 0x03AB, 0x03CB⟩, ⟨0x03C2, 0x03C2, 0x03C3⟩, ⟨0x03CF, 0x03CF, 0x03D7⟩,
   ⟨0x03D0, 0x03D0, 0x03B2⟩, ⟨0x03D1, 0x03D1, 0x03B8⟩, ⟨0x03D5, 0x03D5, 0x03C6⟩, ⟨0x03D6, 0x03D6, 0x03C0⟩,
   ⟨0x03D8, 0x03EE, 0x03EF⟩, ⟨0x03F0, 0x03F0, 0x03BA⟩, ⟨0x03F1, 0x03F1, 0x03C1⟩, ⟨0x03F4, 0x03F4, 0x03B8⟩,
   ⟨0x03F5, 0x03F5, 0x03B5⟩, ⟨0x03F7, 0x03F7, 0x03F8⟩, ⟨0x03F9, 0x03F9, 0x03F2⟩, ⟨0x03FA, 0x03FA, 0x03FB⟩,
   ⟨0x03FD, 0x03FF, 0x037D⟩, ⟨0x0400, 0x040F, 0x045F⟩, ⟨0x0410, 0x042F, 0x044F⟩, ⟨0x0460, 0x0480, 0x0481⟩,
   ⟨0x048A, 0x04BE, 0x04BF⟩, ⟨0x04C0, 0x04C0, 0x04CF⟩, ⟨0x04C1, 0x04CD, 0x04CE⟩, ⟨0x04D0, 0x052E, 0x052F⟩,
   ⟨0x0531, 0x0556, 0x0586⟩, ⟨0x10A0, 0x10C5, 0x2D25⟩, ⟨0x10C7, 0x10C7, 0x2D27⟩, ⟨0x10CD, 0x10CD, 0x2D2D⟩,
   ⟨0x13F8, 0x13FD, 0x13F5⟩, ⟨0x1C80, 0x1C80, 0x0432⟩, ⟨0x1C81, 0x1C81, 0x0434⟩, ⟨0x1C82, 0x1C82, 0x043E⟩,
   ⟨0x1C83, 0x1C84, 0x0442⟩, ⟨0x1C85, 0x1C85, 0x0442⟩, ⟨0x1C86, 0x1C86, 0x044A⟩, ⟨0x1C87, 0x1C87, 0x0463⟩,
   ⟨0x1C88, 0x1C88, 0xA64B⟩, ⟨0x1C90, 0x1CBA, 0x10FA⟩, ⟨0x1CBD, 0x1CBF, 0x10FF⟩, ⟨0x1E00, 0x1E94, 0x1E95⟩,
   ⟨0x1E9B, 0x1E9B, 0x1E61⟩, ⟨0x1E9E, 0x1E9E, 0x00DF⟩, ⟨0x1EA0, 0x1EFE, 0x1EFF⟩, ⟨0x1F08, 0x1F0F, 0x1F07⟩,
   ⟨0x1F18, 0x1F1D, 0x1F15⟩, ⟨0x1F28, 0x1F2F, 0x1F27⟩, ⟨0x1F38, 0x1F3F, 0x1F37⟩, ⟨0x1F48, 0x1F4D, 0x1F45⟩,
   ⟨0x1F59, 0x1F5F, 0x1F57⟩, ⟨0x1F68, 0x1F6F, 0x1F67⟩, ⟨0x1F88, 0x1F8F, 0x1F87⟩, ⟨0x1F98, 0x1F9F, 0x1F97⟩,
   ⟨0x1FA8, 0x1FAF, 0x1FA7⟩, ⟨0x1FB8, 0x1FB9, 0x1FB1⟩, ⟨0x1FBA, 0x1FBB, 0x1F71⟩, ⟨0x1FBC, 0x1FBC, 0x1FB3⟩,
   ⟨0x1FBE, 0x1FBE, 0x03B9⟩, ⟨0x1FC8, 0x1FCB, 0x1F75⟩, ⟨0x1FCC, 0x1FCC, 0x1FC3⟩, ⟨0x1FD8, 0x1FD9, 0x1FD1⟩,
   ⟨0x1FDA, 0x1FDB, 0x1F77⟩, ⟨0x1FE8, 0x1FE9, 0x1FE1⟩, ⟨0x1FEA, 0x1FEB, 0x1F7B⟩, ⟨0x1FEC, 0x1FEC, 0x1FE5⟩,
   ⟨0x1FF8, 0x1FF9, 0x1F79⟩, ⟨0x1FFA, 0x1FFB, 0x1F7D⟩, ⟨0x1FFC, 0x1FFC, 0x1FF3⟩, ⟨0x2126, 0x2126, 0x03C9⟩,
   ⟨0x212A, 0x212A, 0x006B⟩, ⟨0x212B, 0x212B, 0x00E5⟩, ⟨0x2132, 0x2132, 0x214E⟩, ⟨0x2160, 0x216F, 0x217F⟩,
   ⟨0x2183, 0x2183, 0x2184⟩, ⟨0x24B6, 0x24CF, 0x24E9⟩, ⟨0x2C00, 0x2C2F, 0x2C5F⟩, ⟨0x2C60, 0x2C60, 0x2C61⟩,
   ⟨0x2C62, 0x2C62, 0x026B⟩, ⟨0x2C63, 0x2C63, 0x1D7D⟩, ⟨0x2C64, 0x2C64, 0x027D⟩, ⟨0x2C67, 0x2C6B, 0x2C6C⟩,
   ⟨0x2C6D, 0x2C6D, 0x0251⟩, ⟨0x2C6E, 0x2C6E, 0x0271⟩, ⟨0x2C6F, 0x2C6F, 0x0250⟩, ⟨0x2C70, 0x2C70, 0x0252⟩,
   ⟨0x2C72, 0x2C72, 0x2C73⟩, ⟨0x2C75, 0x2C75, 0x2C76⟩, ⟨0x2C7E, 0x2C7F, 0x0240⟩, ⟨0x2C80, 0x2CE2, 0x2CE3⟩,
   ⟨0x2CEB, 0x2CED, 0x2CEE⟩, ⟨0x2CF2, 0x2CF2, 0x2CF3⟩, ⟨0xA640, 0xA66C, 0xA66D⟩, ⟨0xA680, 0xA69A, 0xA69B⟩,
   ⟨0xA722, 0xA72E, 0xA72F⟩, ⟨0xA732, 0xA76E, 0xA76F⟩, ⟨0xA779, 0xA77B, 0xA77C⟩, ⟨0xA77D, 0xA77D, 0x1D79⟩,
   ⟨0xA77E, 0xA786, 0xA787⟩, ⟨0xA78B, 0xA78B, 0xA78C⟩, ⟨0xA78D, 0xA78D, 0x0265⟩, ⟨0xA790, 0xA792, 0xA793⟩,
   ⟨0xA796, 0xA7A8, 0xA7A9⟩, ⟨0xA7AA, 0xA7AA, 0x0266⟩, ⟨0xA7AB, 0xA7AB, 0x025C⟩, ⟨0xA7AC, 0xA7AC, 0x0261⟩,
   ⟨0xA7AD, 0xA7AD, 0x026C⟩, ⟨0xA7AE, 0xA7AE, 0x026A⟩, ⟨0xA7B0, 0xA7B0, 0x029E⟩, ⟨0xA7B1, 0xA7B1, 0x0287⟩,
   ⟨0xA7B2, 0xA7B2, 0x029D⟩, ⟨0xA7B3, 0xA7B3, 0xAB53⟩, ⟨0xA7B4, 0xA7C2, 0xA7C3⟩, ⟨0xA7C4, 0xA7C4, 0xA794⟩,
   ⟨0xA7C5, 0xA7C5, 0x0282⟩, ⟨0xA7C6, 0xA7C6, 0x1D8E⟩, ⟨0xA7C7, 0xA7C9, 0xA7CA⟩, ⟨0xA7D0, 0xA7D0, 0xA7D1⟩,
   ⟨0xA7D6, 0xA7D8, 0xA7D9⟩, ⟨0xA7F5, 0xA7F5, 0xA7F6⟩, ⟨0xAB70, 0xABBF, 0x13EF⟩, ⟨0xFF21, 0xFF3A, 0xFF5A⟩,
   ⟨0x0130, 0x0130, 0x0069⟩, ⟨0x01CD, 0x01DB, 0x01DC⟩, ⟨0x01F4, 0x01F4, 0x01F5⟩, ⟨0x13A0, 0x13EF, 0xABBF⟩,
   ⟨0x13F0, 0x13F5, 0x13FD⟩, ⟨0x039C, 0x039C, 0x00B5⟩, ⟨0x0049, 0x0049, 0x0131⟩, ⟨0x0053, 0x0053, 0x017F⟩,
   ⟨0x03A3, 0x03A3, 0x03C2⟩, ⟨0x0392, 0x0392, 0x03D0⟩, ⟨0x0398, 0x0398, 0x03D1⟩, ⟨0x03A6, 0x03A6, 0x03D5⟩,
   ⟨0x03A0, 0x03A0, 0x03D6⟩, ⟨0x039A, 0x039A, 0x03F0⟩, ⟨0x03A1, 0x03A1, 0x03F1⟩, ⟨0x0395, 0x0395, 0x03F5⟩,
   ⟨0x0412, 0x0412, 0x1C80⟩, ⟨0x0414, 0x0414, 0x1C81⟩, ⟨0x041E, 0x041E, 0x1C82⟩, ⟨0x0421, 0x0422, 0x1C84⟩,
   ⟨0x0422, 0x0422, 0x1C85⟩, ⟨0x042A, 0x042A, 0x1C86⟩, ⟨0x0462, 0x0462, 0x1C87⟩, ⟨0xA64A, 0xA64A, 0x1C88⟩,
   ⟨0x1E60, 0x1E60, 0x1E9B⟩, ⟨0x0399, 0x0399, 0x1FBE⟩]

/-- utf8_tab.c:225 `casefold_len`. -/
def casefoldLen : Nat := 192

/-- utf8_tab.c:227-237 `upcase_ind`. -/
def upcaseInd : List Nat :=
  [0, 2, 3, 4, 192, 5, 6, 7, 8, 9, 11, 12, 13, 14, 15, 16, 17, 18, 19, 20,
   21, 22, 23, 24, 25, 26, 27, 28, 29, 30, 31, 32, 33, 34, 35, 36, 37, 38, 39, 40,
   41, 43, 45, 193, 47, 48, 194, 50, 51, 52, 53, 54, 55, 56, 57, 58, 59, 60, 61, 62,
   63, 65, 66, 67, 68, 69, 70, 71, 72, 73, 75, 80, 83, 85, 86, 87, 88, 89, 90, 91,
   92, 93, 94, 95, 96, 97, 98, 99, 195, 196, 109, 110, 111, 113, 114, 115, 116, 117, 118, 119,
   120, 121, 125, 126, 129, 131, 132, 133, 134, 135, 136, 137, 139, 140, 141, 142, 144, 146, 147, 148,
   149, 150, 151, 152, 153, 154, 155, 156, 157, 158, 159, 160, 161, 162, 163, 164, 165, 166, 167, 168,
   169, 170, 171, 172, 173, 174, 175, 176, 177, 178, 179, 180, 181, 182, 183, 184, 185, 186, 187, 188,
   189, 191]

/-- utf8_tab.c:239-250 `lowcase_ind`. -/
def lowcaseInd : List Nat :=
  [0, 197, 113, 2, 3, 8, 4, 198, 5, 6, 7, 9, 199, 60, 12, 14, 16, 20, 50, 25,
   57, 53, 29, 31, 33, 35, 37, 39, 40, 51, 41, 43, 45, 193, 17, 47, 48, 194, 52, 54,
   56, 158, 59, 63, 154, 152, 155, 11, 13, 15, 18, 19, 174, 21, 175, 22, 170, 173, 24, 23,
   177, 148, 176, 26, 153, 27, 28, 150, 30, 184, 32, 179, 34, 61, 36, 62, 38, 180, 178, 65,
   66, 88, 68, 69, 72, 200, 73, 70, 71, 201, 202, 203, 204, 75, 80, 205, 206, 86, 67, 207,
   85, 87, 90, 89, 91, 92, 94, 93, 95, 96, 109, 110, 196, 208, 209, 210, 211, 212, 213, 214,
   215, 167, 149, 185, 111, 216, 114, 115, 116, 117, 118, 119, 120, 121, 126, 129, 132, 136, 134, 137,
   122, 123, 124, 125, 127, 217, 130, 131, 133, 135, 138, 142, 144, 146, 147, 55, 58, 151, 156, 157,
   159, 160, 161, 97, 98, 99, 162, 163, 164, 165, 166, 168, 169, 171, 183, 172, 182, 186, 187, 188,
   189, 181, 195, 191]

/-- utf8_prv.c:28-42 `utf8_dtab`. -/
def dtab : List Nat :=
  [0, 0, 0, 0, 0, 0, 0, 0, 0, 0, 0, 0, 0, 0, 0, 0, 0, 0, 0, 0, 0, 0, 0, 0, 0, 0, 0, 0, 0, 0, 0, 0,
   0, 0, 0, 0, 0, 0, 0, 0, 0, 0, 0, 0, 0, 0, 0, 0, 0, 0, 0, 0, 0, 0, 0, 0, 0, 0, 0, 0, 0, 0, 0, 0,
   0, 0, 0, 0, 0, 0, 0, 0, 0, 0, 0, 0, 0, 0, 0, 0, 0, 0, 0, 0, 0, 0, 0, 0, 0, 0, 0, 0, 0, 0, 0, 0,
   0, 0, 0, 0, 0, 0, 0, 0, 0, 0, 0, 0, 0, 0, 0, 0, 0, 0, 0, 0, 0, 0, 0, 0, 0, 0, 0, 0, 0, 0, 0, 0,
   1, 1, 1, 1, 1, 1, 1, 1, 1, 1, 1, 1, 1, 1, 1, 1, 9, 9, 9, 9, 9, 9, 9, 9, 9, 9, 9, 9, 9, 9, 9, 9,
   7, 7, 7, 7, 7, 7, 7, 7, 7, 7, 7, 7, 7, 7, 7, 7, 7, 7, 7, 7, 7, 7, 7, 7, 7, 7, 7, 7, 7, 7, 7, 7,
   8, 8, 2, 2, 2, 2, 2, 2, 2, 2, 2, 2, 2, 2, 2, 2, 2, 2, 2, 2, 2, 2, 2, 2, 2, 2, 2, 2, 2, 2, 2, 2,
   10, 3, 3, 3, 3, 3, 3, 3, 3, 3, 3, 3, 3, 4, 3, 3, 11, 6, 6, 6, 5, 8, 8, 8, 8, 8, 8, 8, 8, 8, 8, 8,
   0, 12, 24, 36, 60, 96, 84, 12, 12, 12, 48, 72, 12, 12, 12, 12, 12, 12, 12, 12, 12, 12, 12, 12, 12, 0, 12, 12, 12, 12, 12, 0,
   12, 0, 12, 12, 12, 24, 12, 12, 12, 12, 12, 24, 12, 24, 12, 12, 12, 12, 12, 12, 12, 12, 12, 24, 12, 12, 12, 12, 12, 24, 12, 12,
   12, 12, 12, 12, 12, 24, 12, 12, 12, 12, 12, 12, 12, 12, 12, 36, 12, 36, 12, 12, 12, 36, 12, 12, 12, 12, 12, 36, 12, 36, 12, 12,
   12, 36, 12, 12, 12, 12, 12, 12, 12, 12, 12, 12]

end Verif.Utf8
